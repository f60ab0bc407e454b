import Verif.Spec.RegexStart

/-!
# Where a repeated group stands in a pattern
-/

namespace Pango.Spec

open Pango.Regex

variable [Unicode]

/-- `Within e b z`: `b` is what a group with a quantifier in `e` repeats, and after `e` was read up to `z` a round
of that group can begin. -/
inductive Within : Expr → Expr → List Char → Prop
  | here {b : Expr} {q : Quant} : Within (.group b (some q)) b []
  | altL {l r b : Expr} {z : List Char} : Within l b z → Within (.alt l r) b z
  | altR {l r b : Expr} {z : List Char} : Within r b z → Within (.alt l r) b z
  | group {e b : Expr} {z : List Char} : Within e b z → Within (.group e none) b z
  | rounds {e b : Expr} {q : Quant} {ws : List (List Char)} {z : List Char} :
      (∀ w ∈ ws, Matches e w) → Within e b z → Within (.group e (some q)) b (ws.flatten ++ z)
  | head {e b : Expr} {es : List Expr} {z : List Char} : Within e b z → Within (.concat (e :: es)) b z
  | tail {e b : Expr} {es : List Expr} {u z : List Char} :
      Matches e u → Within (.concat es) b z → Within (.concat (e :: es)) b (u ++ z)

/-- `Enters e b z`: the same for a pattern at the front of the input, where `z` has the first character. -/
inductive Enters : Expr → Expr → List Char → Prop
  | here {b : Expr} {q : Quant} {f : Bool} {u : List Char} : Begins b f u → Enters (.group b (some q)) b u
  | first {e b : Expr} {q : Quant} {z : List Char} : Enters e b z → Enters (.group e (some q)) b z
  | rounds {e b : Expr} {q : Quant} {f : Bool} {u : List Char} {ws : List (List Char)} {z : List Char} :
      Begins e f u → (∀ w ∈ ws, Matches e w) → Within e b z → Enters (.group e (some q)) b (u ++ ws.flatten ++ z)
  | altL {l r b : Expr} {z : List Char} : Enters l b z → Enters (.alt l r) b z
  | altR {l r b : Expr} {z : List Char} : Enters r b z → Enters (.alt l r) b z
  | group {e b : Expr} {z : List Char} : Enters e b z → Enters (.group e none) b z
  | head {e b : Expr} {es : List Expr} {z : List Char} : Enters e b z → Enters (.concat (e :: es)) b z
  | tail {e b : Expr} {es : List Expr} {f : Bool} {u z : List Char} :
      Begins e f u → Within (.concat es) b z → Enters (.concat (e :: es)) b (u ++ z)
  | skip {e b : Expr} {es : List Expr} {z : List Char} :
      Skips e → Enters (.concat es) b z → Enters (.concat (e :: es)) b z

/-- `Bare e l`: `e` is the literal `l`, or a choice that has it, without anything else. -/
inductive Bare : Expr → Lit → Prop
  | lit {l : Lit} : Bare (.lit l none) l
  | altL {e e' : Expr} {l : Lit} : Bare e l → Bare (.alt e e') l
  | altR {e e' : Expr} {l : Lit} : Bare e' l → Bare (.alt e e') l
  | group {e : Expr} {l : Lit} : Bare e l → Bare (.group e none) l
  | single {e : Expr} {l : Lit} : Bare e l → Bare (.concat [e]) l

/-- `Ambiguous e w`: there are two ways to match `w` with `e`.  Two parts of a choice that are the same literal are one way
only. -/
inductive Ambiguous : Expr → List Char → Prop
  /-- Both parts of a choice match. -/
  | alts {l r : Expr} {w : List Char} : Matches l w → Matches r w → w ≠ [] →
      (∀ c t, w = [c] → LitSet t c → Bare l t → ¬ Bare r t) → Ambiguous (.alt l r) w
  /-- A sequence can be divided in two ways. -/
  | split {e : Expr} {es : List Expr} {u a v : List Char} : Matches e u → Matches (.concat es) (a ++ v) →
      Matches e (u ++ a) → Matches (.concat es) v → a ≠ [] → Ambiguous (.concat (e :: es)) (u ++ a ++ v)
  /-- A repetition can be divided in two ways. -/
  | rounds {e : Expr} {q : Quant} {us vs : List (List Char)} : us ≠ vs → us.flatten = vs.flatten →
      (∀ u ∈ us, Matches e u) → (∀ v ∈ vs, Matches e v) → QuantSet (some q) us.length → QuantSet (some q) vs.length →
      Ambiguous (.group e (some q)) us.flatten
  | altL {l r : Expr} {w : List Char} : Ambiguous l w → Ambiguous (.alt l r) w
  | altR {l r : Expr} {w : List Char} : Ambiguous r w → Ambiguous (.alt l r) w
  | head {e : Expr} {es : List Expr} {u v : List Char} :
      Ambiguous e u → Matches (.concat es) v → Ambiguous (.concat (e :: es)) (u ++ v)
  | tail {e : Expr} {es : List Expr} {u v : List Char} :
      Matches e u → Ambiguous (.concat es) v → Ambiguous (.concat (e :: es)) (u ++ v)
  | group {e : Expr} {w : List Char} : Ambiguous e w → Ambiguous (.group e none) w
  | round {e : Expr} {q : Quant} {us vs : List (List Char)} {w : List Char} : (∀ u ∈ us, Matches e u) → Ambiguous e w →
      (∀ v ∈ vs, Matches e v) → QuantSet (some q) (us.length + 1 + vs.length) →
      Ambiguous (.group e (some q)) (us.flatten ++ w ++ vs.flatten)

end Pango.Spec
