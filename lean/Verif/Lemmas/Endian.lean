import Verif.Model.Endian
namespace Solace

theorem leValue_inj {a b : List Byte} (hl : a.length = b.length) (h : leValue a = leValue b) : a = b := by
  induction a generalizing b with
  | nil => exact (List.length_eq_zero_iff.mp hl.symm).symm
  | cons x a ih =>
    cases b with
    | nil => cases hl
    | cons y b =>
      simp only [leValue] at h
      have := x.isLt
      have := y.isLt
      rw [BitVec.eq_of_toNat_eq (show x.toNat = y.toNat by omega), ih (by simpa using hl) (by omega)]

theorem hostValue_inj {big : Bool} {a b : List Byte} (hl : a.length = b.length) (h : hostValue big a = hostValue big b) :
    a = b := by
  cases big
  · exact leValue_inj hl (by simpa [hostValue] using h)
  · have := leValue_inj (a := a.reverse) (b := b.reverse) (by simpa using hl) (by simpa [hostValue] using h)
    exact List.reverse_inj.mp this

end Solace
