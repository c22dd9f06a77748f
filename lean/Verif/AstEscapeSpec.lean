import Verif.Base

/-!
# What is read by everything-except with an escape token (C124)
-/

namespace Rodkina.EscapeSpec

/-- What reading a text up to the exception `q`, with the escape `e`, gives for an input: the text and
the rest of the input, or nothing when the parser crashes. -/
inductive ReadsText (e q : Bytes) : Bytes → Option (Bytes × Bytes) → Prop
  /-- The end of the input ends the text. -/
  | atEnd : ReadsText e q [] (some ([], []))
  /-- The exception ends the text. -/
  | stop (d : Bytes) : ¬ e ++ q <+: d → q <+: d → ReadsText e q d (some ([], d))
  /-- Any other byte belongs to the text, the escape not followed by the exception among them. -/
  | byte (b : UInt8) (r : Bytes) (o : Option (Bytes × Bytes)) : ¬ e ++ q <+: b :: r →
      ¬ q <+: b :: r → ReadsText e q r o →
      ReadsText e q (b :: r) (o.map (fun x => (b :: x.1, x.2)))
  /-- Nothing behind an escaped exception. -/
  | escapedEnd : ReadsText e q (e ++ q) none
  /-- The exception behind an escaped exception ends the text. -/
  | escapedStop (r : Bytes) : q <+: r → ReadsText e q (e ++ q ++ r) (some (q, r))
  /-- The byte behind an escaped exception belongs to the text, whatever it begins. -/
  | escapedByte (b : UInt8) (r : Bytes) (o : Option (Bytes × Bytes)) : ¬ q <+: b :: r →
      ReadsText e q r o → ReadsText e q (e ++ q ++ b :: r) (o.map (fun x => (q ++ b :: x.1, x.2)))

end Rodkina.EscapeSpec
