import Verif.Model.Slr

/-!
# Trees can be compared
-/

namespace Pango.Parse

variable {V T : Type} [DecidableEq V] [DecidableEq T]

mutual

def Node.decEq : (a b : Node V T) → Decidable (a = b)
  | .mk s cs, .mk s' cs' =>
    if h : s = s' then
      match Node.decEqAll cs cs' with
      | isTrue h' => isTrue (by rw [h, h'])
      | isFalse h' => isFalse (by intro e; injection e; contradiction)
    else isFalse (by intro e; injection e; contradiction)

def Node.decEqAll : (a b : List (Node V T)) → Decidable (a = b)
  | [], [] => isTrue rfl
  | [], _ :: _ => isFalse (by simp)
  | _ :: _, [] => isFalse (by simp)
  | n :: ns, m :: ms =>
    match Node.decEq n m, Node.decEqAll ns ms with
    | isTrue h, isTrue h' => isTrue (by rw [h, h'])
    | isFalse h, _ => isFalse (by intro e; injection e; contradiction)
    | _, isFalse h => isFalse (by intro e; injection e; contradiction)

end

instance : DecidableEq (Node V T) := Node.decEq

end Pango.Parse
