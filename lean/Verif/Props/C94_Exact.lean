import Verif.Props.C94_HashReader
import Verif.Props.C58_C60_Exact
/-! C94 for pieces of any length. -/
namespace Solace.Hash
open Spec

/-- **C94**, pieces of any length: hashing views and readers is hashing the pieces they contribute one after the other. So the
digest is the published one whenever no piece loses a carry of the length counter (`Gentle`), however long the pieces are, and
otherwise the length appended is wrong (`C58_exact`). -/
theorem C94_digest_exact (h : Host) (rs : List Source) (fs : List Feed) (hrs : ∀ s ∈ rs, Sound s.reader)
    (hfs : ∀ i, Feed.reader i ∈ fs → i < rs.length) (ps : List (List Byte))
    (hps : ps = contributions (rs.map fun s => unread s.reader) fs) :
    (Md5.ofFeeds h rs fs = Md5.hash h ps ∧ Sha1.ofFeeds h rs fs = Sha1.hash h ps ∧ Sha2.ofFeeds h rs fs = Sha2.hash h ps) ∧
    (Gentle ps → Md5.ofFeeds h rs fs = .ok (Spec.Md5.md5 ps.flatten) ∧ Sha1.ofFeeds h rs fs = .ok (Spec.Sha1.sha1 ps.flatten) ∧
      Sha2.ofFeeds h rs fs = .ok (Sha256.sha256 ps.flatten)) := by
  subst hps
  have h1 : Md5.ofFeeds h rs fs = Md5.hash h (contributions (rs.map fun s => unread s.reader) fs) := by
    rw [Md5.ofFeeds, C94_feed _ _ _ _ hrs hfs, bind_bind_ok _ _ fun c => (Md5.digest h c).bind _]
    rfl
  have h2 : Sha1.ofFeeds h rs fs = Sha1.hash h (contributions (rs.map fun s => unread s.reader) fs) := by
    rw [Sha1.ofFeeds, C94_feed _ _ _ _ hrs hfs, bind_bind_ok _ _ fun c => (Sha1.digest h c).bind _]
    rfl
  have h3 : Sha2.ofFeeds h rs fs = Sha2.hash h (contributions (rs.map fun s => unread s.reader) fs) := by
    rw [Sha2.ofFeeds, C94_feed _ _ _ _ hrs hfs, bind_bind_ok _ _ fun c => (Sha2.digest h c).bind _]
    rfl
  refine ⟨⟨h1, h2, h3⟩, fun g => ⟨?_, ?_, ?_⟩⟩
  · rw [h1, (Md5.C58_exact h _).2.1 g]
  · rw [h2, (Sha1.C59_exact h _).2.1 g]
  · rw [h3, (Sha2.C60_exact h _).2.1 g]

/-- One view of 5 GiB. -/
example (m : List Byte) (hm : m.length = 5 * 2 ^ 30) : Gentle (contributions [] [.view 0 m]) := (gentle_single m).mpr (by omega)

end Solace.Hash
