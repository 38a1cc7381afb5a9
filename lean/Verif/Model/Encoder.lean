import Verif.Model.ByteWriter
/-
Model of `Encoder::encode(ByteReader&)`, /repo/src/encoder.cpp:29-34.
-/
namespace Solace

/-- `encodeView` is the virtual `encode(MemoryView)` of the concrete encoder. The reader is advanced only if it
succeeded. Result: destination, source reader, returned value. -/
def encodeReader (encodeView : ByteWriter → List Byte → ByteWriter.Call) (dest : ByteWriter) (src : ByteReader) :
    ByteWriter × ByteReader × Except Err Unit :=
  let remaining := src.remaining
  match encodeView dest src.viewRemaining with
  | (dest', .error e) => (dest', src, .error e)
  | (dest', .ok _) =>
    let r := src.advance remaining
    (dest', r.reader, r.ret.map fun _ => ())

end Solace
