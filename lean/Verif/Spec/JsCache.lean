import Verif.Spec.Js
import Verif.Model.JsCache
/-!
# What programs with CachedSources describe

A `CachedSource` stands for the object it wraps.
-/

namespace WS.Spec

/-- The objects and, for every `CachedSource`, the object it stands for. -/
structure CThings where
  things : List JThing
  stands : List Nat

/-- The object meant. -/
def CThings.meant (t : CThings) : CRef → Nat
  | .obj j => j
  | .cached k => (t.stands[k]?).getD 0

/-- The argument meant. -/
def CThings.arg (t : CThings) : CArg → JSrc
  | .str s => .str s
  | .ref r => .obj (t.meant r)

/-- What a statement does to the objects. -/
def cstep (t : CThings) : COp → CThings
  | .js op => { t with things := jstep t.things op }
  | .newCached r => { t with stands := t.stands ++ [t.meant r] }
  | .newPrefix p a => { t with things := jstep t.things (.newPrefix p (t.arg a)) }
  | .newReplace a => { t with things := jstep t.things (.newReplace (t.arg a)) }
  | .newConcat as => { t with things := jstep t.things (.newConcat (as.map t.arg)) }
  | .add j a => { t with things := jstep t.things (.add j (t.arg a)) }
  | _ => t

/-- After a program. -/
def cthings (ops : List COp) : CThings := ops.foldl cstep ⟨[], []⟩

/-- Positions are whole or not negative. -/
def _root_.WS.COp.Proper : COp → Prop
  | .js op => op.Proper
  | _ => True

/-- The statement changes an object there is. -/
def _root_.WS.COp.Edits : COp → Prop
  | .js (.add ..) | .js (.replace ..) | .js (.insert ..) | .add .. => True
  | _ => False

/-- Options ask for columns unless they say `columns: false`. -/
def asksColumns : Option JOpts → Bool
  | some ⟨some false, _⟩ => false
  | _ => true

/-- Options ask for module-level maps unless they say `module: false`. -/
def asksModule : Option JOpts → Bool
  | some ⟨_, some false⟩ => false
  | _ => true

/-- Options asked for twice: `map` takes missing options for empty ones. -/
def _root_.WS.COp.asked : COp → Option (Nat × Option JOpts)
  | .map k none => some (k, some ⟨none, none⟩)
  | .map k o => some (k, o)
  | .both k o => some (k, o)
  | _ => none

/-- The map in an answer. -/
def _root_.WS.CReply.theMap : CReply → Option (Option Nat)
  | .map m => some m
  | .both _ m => some m
  | _ => none

end WS.Spec
