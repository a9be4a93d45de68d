import Verif.Spec.Text
/-! # Specification of text edits (no reference to the model) -/

namespace WS.Spec

/-- An edit: characters `start ≤ k < stop` are replaced by `text`. -/
structure Edit where
  start : Int
  stop : Int
  text : List Char
  deriving DecidableEq, Repr

/-- Apply edits that are listed from left to right, beginning at character `k` of `s`: copy up to
the edit, put its text, continue after it. Positions are clamped to the text. -/
def splice (s : List Char) : Nat → List Edit → List Char
  | k, [] => s.drop k
  | k, e :: es => (s.take e.start.toNat).drop k ++ e.text ++ splice s e.stop.toNat es

/-- Apply edits from right to left, each to what lies left of the one before; defined for edits
that overlap as well. -/
def applyRight : List Char → List Edit → List Char
  | rem, [] => rem
  | rem, e :: es =>
    applyRight ((rem.take e.stop.toNat).take e.start.toNat) es ++ e.text ++ rem.drop e.stop.toNat

end WS.Spec
