import Verif.Spec.Words

/-!
# Names and keywords
-/

namespace Pango.Spec

open Pango.Regex

variable [Unicode]

/-- A name begins with a character of one set, and its other characters are in another one. -/
def IsName (A B : Lit) (w : List Char) : Prop := ∃ c u, w = c :: u ∧ LitSet A c ∧ ∀ d ∈ u, LitSet B d

omit [Unicode] in
/-- The trees of the two usual ways to write a pattern for names, `[a-z][a-z0-9]*` and `[a-z]+`. -/
inductive NameTree : Lit → Lit → Expr → Prop
  | first {A B : Lit} : NameTree A B (.concat [.lit A none, .lit B (some .asterisk)])
  | same {A : Lit} : NameTree A A (.lit A (some .plus))

/-- The kind of a name: that of the first keyword that it is, or else that of a name which is no keyword. -/
def nameKind {K : Type} (keywords : List (List Char × (List Char → K))) (other : List Char → K) (w : List Char) : K :=
  ((keywords.find? fun k => k.1 = w).elim other Prod.snd) w

/-- The names in a text are the tokens that begin like names.  Each of them is a name that goes on as far as possible,
and its kind says whether it is a keyword. -/
def NamesOf {K : Type} (A B : Lit) (keywords : List (List Char × (List Char → K))) (other : List Char → K)
    (tokens : List (List Char × K)) (tail : List Char) : Prop :=
  ∀ before w k after, tokens = before ++ (w, k) :: after → (∃ c, w.head? = some c ∧ LitSet A c) →
    IsName A B w ∧ (∀ c, ((after.map Prod.fst).flatten ++ tail).head? = some c → ¬ LitSet B c) ∧
      k = nameKind keywords other w

end Pango.Spec
