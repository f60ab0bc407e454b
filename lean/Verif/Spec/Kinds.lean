import Verif.Model.Lexer

/-!
# Answers that differ only in the kinds of tokens
-/

namespace Pango.Spec

open Pango.Lex

variable {K K' : Type}

/-- Two answers of lexers with the same patterns: no token, or tokens with the same source and the same place, whose
kinds are what the functions of the same rule make of this source. -/
inductive SameButKind (rules : List (List Char × (List Char → K))) (rules' : List (List Char × (List Char → K'))) :
    Option (Tok K) → Option (Tok K') → Prop
  | none : SameButKind rules rules' none none
  | some {i : Nat} {pattern source : List Char} {f : List Char → K} {f' : List Char → K'} {span : Nat × Nat} :
      rules[i]? = some (pattern, f) → rules'[i]? = some (pattern, f') →
      SameButKind rules rules' (some ⟨f source, source, span⟩) (some ⟨f' source, source, span⟩)

/-- Lists of the same length, whose elements are related one by one. -/
inductive Pairwise₂ {A B : Type} (R : A → B → Prop) : List A → List B → Prop
  | nil : Pairwise₂ R [] []
  | cons {a : A} {b : B} {as : List A} {bs : List B} : R a b → Pairwise₂ R as bs → Pairwise₂ R (a :: as) (b :: bs)

end Pango.Spec
