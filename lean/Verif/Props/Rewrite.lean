import Verif.Proofs.Rewrite
import Verif.Props.Replace

/-!
# C73, C85: other patterns, the same lexer
-/

namespace Pango.Props

open Pango Pango.Lex Pango.Fsm Pango.Regex Pango.Spec

variable [Unicode] {K : Type} {p : Profile} {rules rules' : List (List Char × (List Char → K))} {es es' : List Expr}
  {l l' : Lexer K}

/-- A number of calls of `next` on the input return these answers. -/
def CallsReturn (l : Lexer K) (input : List Char) (as : List (Option (Tok K))) : Prop :=
  ∃ fuel it, lexCalls (nfaMachine l.nfa fuel) l.tokens as.length (InputIter.new input) = .ok (as, it)

/-- C73 for all lexers, call by call: nothing changes if, rule by rule, the functions and the words that the patterns
take are the same, and the patterns together can be read as far and get stuck on the same words.  Missing: patterns of
which only the accepted words are known, for which the claim is false. -/
theorem c73_every_partial (hl : LexerFor p rules es l) (hl' : LexerFor p rules' es' l')
    (kinds : rules.map Prod.snd = rules'.map Prod.snd)
    (same : ∀ (i : Nat) (e e' : Expr), es[i]? = some e → es'[i]? = some e' → ∀ w, Taken e w ↔ Taken e' w)
    (reads : ∀ w, Readable es w ↔ Readable es' w) (stuck : ∀ w, Passes es w ↔ Passes es' w)
    (input : List Char) (as : List (Option (Tok K))) : CallsReturn l input as ↔ CallsReturn l' input as := by
  have len : rules.length = rules'.length := by simpa using congrArg List.length kinds
  have t : taken es = taken es' := by
    have h1 := congrArg List.length hl.trees
    have h2 := congrArg List.length hl'.trees
    simp only [List.length_map] at h1 h2
    refine List.ext_getElem (by simp only [taken, List.length_map]; omega) fun i h3 h4 => ?_
    simp only [taken, List.length_map, List.getElem_map] at h3 h4 ⊢
    exact funext fun w => propext (same i _ _ (List.getElem?_eq_getElem h3) (List.getElem?_eq_getElem h4) w)
  have r : Readable es = Readable es' := funext fun w => propext (reads w)
  have e : Passes es = Passes es' := funext fun w => propext (stuck w)
  have k : kindAt rules = kindAt rules' := by
    funext i w
    have := congrArg (fun x => x[i]?.map fun f => f w) kinds
    simpa [kindAt, Function.comp_def] using this
  unfold CallsReturn
  rw [c23_calls_partial p rules es l hl, c23_calls_partial p rules' es' l' hl', Scans, Scans, t, r, e, k]

/-- C85: rewriting the patterns by the laws changes nothing in what the calls of `next` return, or whether they do. -/
theorem c85_calls (hl : LexerFor p rules es l) (hl' : LexerFor p rules' es' l')
    (kinds : rules.map Prod.snd = rules'.map Prod.snd)
    (rewritten : ∀ (i : Nat) (e e' : Expr), es[i]? = some e → es'[i]? = some e' → Rewrites e e')
    (input : List Char) (as : List (Option (Tok K))) : CallsReturn l input as ↔ CallsReturn l' input as := by
  have len : es.length = es'.length := by
    have h1 := congrArg List.length hl.trees
    have h2 := congrArg List.length hl'.trees
    have h3 := congrArg List.length kinds
    simp only [List.length_map] at h1 h2 h3
    omega
  have there : ∀ e ∈ es, ∃ e' ∈ es', Same e e' := by
    intro e he
    obtain ⟨i, hi, rfl⟩ := List.getElem_of_mem he
    exact ⟨es'[i], List.getElem_mem _, (rewritten i _ _ (List.getElem?_eq_getElem hi)
      (List.getElem?_eq_getElem (len ▸ hi))).same⟩
  have back : ∀ e' ∈ es', ∃ e ∈ es, Same e e' := by
    intro e he
    obtain ⟨i, hi, rfl⟩ := List.getElem_of_mem he
    exact ⟨es[i], List.getElem_mem _, (rewritten i _ _ (List.getElem?_eq_getElem (len ▸ hi))
      (List.getElem?_eq_getElem hi)).same⟩
  refine c73_every_partial hl hl' kinds (fun i e e' h h' w => ?_) (fun w => ?_) (fun w => ?_) input as
  · have s := (rewritten i e e' h h').same
    simp only [Taken, s.skips, s.begins]
  · constructor
    · rintro (h | ⟨e, he, h⟩)
      · exact .inl h
      · obtain ⟨e', he', s⟩ := there e he
        exact .inr ⟨e', he', (s.mayBegin w).1 h⟩
    · rintro (h | ⟨e', he', h⟩)
      · exact .inl h
      · obtain ⟨e, he, s⟩ := back e' he'
        exact .inr ⟨e, he, (s.mayBegin w).2 h⟩
  · constructor
    · intro h e' he' v hv hs
      obtain ⟨e, he, s⟩ := back e' he'
      exact h e he v hv ((s.spinsFirst v).2 hs)
    · intro h e he v hv hs
      obtain ⟨e', he', s⟩ := there e he
      exact h e' he' v hv ((s.spinsFirst v).1 hs)

/-- C85 for a pattern that is matched by itself. -/
theorem c85_match {e e' : Expr} (h : Rewrites e e') (hc : ¬ HasEmptySeq e) (hc' : ¬ HasEmptySeq e') (v : List Char)
    (b : Bool) : Answers e v b ↔ Answers e' v b := by
  rw [c11_answers_partial e hc, c11_answers_partial e' hc']
  simp only [Taken, h.same.skips, h.same.begins, h.same.spinsFirst]

/-! ## The laws are needed -/

/-- More than C85: all that patterns with the same regular language answer is the same. -/
def EveryIdentity : Prop :=
  ∀ e e' : Expr, ¬ HasEmptySeq e → ¬ HasEmptySeq e' → (∀ w, Matches e w ↔ Matches e' w) →
    ∀ v b, Answers e v b ↔ Answers e' v b

/-- `(aa*){2}` and `(a+){2}`. -/
def twoRuns : Expr := .group (.concat [.lit (.mtch 'a') none, .lit (.mtch 'a') (some .asterisk)]) (some (.max 2))

def twoRuns' : Expr := .group (.lit (.mtch 'a') (some .plus)) (some (.max 2))

/-- `aa*` may not be written for `a+`: of `(aa*){2}` and `(a+){2}` only the first one matches `aa`. -/
theorem c85_every_false : ¬ EveryIdentity := by
  intro h
  have inner : ∀ w, Matches (.concat [.lit (.mtch 'a') none, .lit (.mtch 'a') (some .asterisk)]) w ↔
      Matches (.lit (.mtch 'a') (some .plus)) w := by
    intro w
    simp only [mat_cons, mat_nil, mat_lit, QuantSet, LitSet, true_and]
    constructor
    · rintro ⟨u, _, rfl, ⟨h1, h2⟩, v, _, rfl, h3, rfl⟩
      refine ⟨by simp only [List.length_append]; omega, fun c hc => ?_⟩
      simp only [List.append_nil, List.mem_append] at hc
      exact hc.elim (h2 c) (h3 c)
    · rintro ⟨h1, h2⟩
      cases w with
      | nil => simp at h1
      | cons c w =>
        exact ⟨[c], w, rfl, ⟨rfl, fun x hx => h2 x (by simp_all)⟩, w, [], by simp, fun x hx => h2 x (by simp [hx]), rfl⟩
  have same : ∀ w, Matches twoRuns w ↔ Matches twoRuns' w := fun w => by
    simp only [twoRuns, twoRuns', mat_group, inner]
  have yes : Answers twoRuns ['a', 'a'] true := ⟨_, 30, rfl, by with_unfolding_all rfl⟩
  have no : Answers twoRuns' ['a', 'a'] false := ⟨_, 30, rfl, by with_unfolding_all rfl⟩
  have hc : ¬ HasEmptySeq twoRuns := by simp [twoRuns, HasEmptySeq, AnyEmptySeq]
  have hc' : ¬ HasEmptySeq twoRuns' := by simp [twoRuns', HasEmptySeq]
  have h1 := (h twoRuns twoRuns' hc hc' same ['a', 'a'] true).1 yes
  rw [c11_answers_partial _ hc'] at h1 no
  have := no.2.2 (h1.2.1 rfl)
  simp at this

/-! ## The theorems apply -/

/-- `x(a|b)?` and `x[ba]?`. -/
def maybeAB : Expr :=
  .concat [.lit (.mtch 'x') none, .group (.alt (.lit (.mtch 'a') none) (.lit (.mtch 'b') none)) (some .questionMark)]

def maybeAB' : Expr :=
  .concat [.lit (.mtch 'x') none, .lit (.group false [.mtch 'b', .mtch 'a']) (some .questionMark)]

theorem maybe_rewrites : Rewrites maybeAB maybeAB' := by
  refine .tail (.head ?_)
  refine .trans (.group (.symm (.choice (l := .group false [.mtch 'b', .mtch 'a']) fun c => ?_))) ?_
  · simp [LitSet, ItemSet, or_comm]
  · exact .symm .wrap

/-- The lexer with the rules `x(a|b)?` and `a`. -/
def maybeLexer : Lexer Nat :=
  ⟨⟨0, [⟨0, false, [(.literal (.mtch 'x'), [3]), (.literal (.mtch 'a'), [5])]⟩, ⟨1, true, []⟩, ⟨2, true, []⟩,
    ⟨3, false, [(.eps, [4])]⟩,
    ⟨4, false, [(.quantified .questionMark, [2]), (.literal (.mtch 'a'), [4]), (.literal (.mtch 'b'), [4])]⟩,
    ⟨5, true, []⟩]⟩, [(2, fun _ => 0), (5, fun _ => 1)]⟩

/-- The lexer with the rules `x[ba]?` and `(a)`. -/
def maybeLexer' : Lexer Nat :=
  ⟨⟨0, [⟨0, false, [(.literal (.mtch 'x'), [3]), (.literal (.mtch 'a'), [5])]⟩, ⟨1, true, []⟩, ⟨2, true, []⟩,
    ⟨3, false, [(.eps, [4])]⟩,
    ⟨4, false, [(.quantified .questionMark, [2]), (.literal (.group false [.mtch 'b', .mtch 'a']), [4])]⟩,
    ⟨5, true, []⟩]⟩, [(2, fun _ => 0), (5, fun _ => 1)]⟩

omit [Unicode] in
theorem maybe_for : LexerFor .debug [("x(a|b)?".toList, fun _ => 0), ("a".toList, fun _ => 1)]
    [maybeAB, .lit (.mtch 'a') none] maybeLexer := ⟨rfl, rfl⟩

omit [Unicode] in
theorem maybe_for' : LexerFor .debug [("x[ba]?".toList, fun _ => 0), ("(a)".toList, fun _ => 1)]
    [maybeAB', .group (.lit (.mtch 'a') none) none] maybeLexer' := ⟨rfl, rfl⟩

example : CallsReturn maybeLexer' "xaax".toList [some ⟨0, "xa".toList, (0, 2)⟩, some ⟨1, "a".toList, (2, 3)⟩] := by
  refine (c85_calls maybe_for maybe_for' rfl ?_ _ _).1 ⟨20, _, by with_unfolding_all rfl⟩
  intro i e e' h h'
  match i with
  | 0 => cases h; cases h'; exact maybe_rewrites
  | 1 => cases h; cases h'; exact .symm .paren

example : (∃ b, Answers maybeAB ['x', 'b'] b) ∧ (Answers maybeAB ['x', 'b'] true ↔ Answers maybeAB' ['x', 'b'] true) :=
  ⟨⟨true, _, 30, rfl, by with_unfolding_all rfl⟩, c85_match maybe_rewrites
    (by simp [maybeAB, HasEmptySeq, AnyEmptySeq]) (by simp [maybeAB', HasEmptySeq, AnyEmptySeq]) _ _⟩

/-- `a?`, `a*` and `a+` are `a{0,1}`, `a{0,}` and `a{1,}`, and `[0-9]` is `\d`. -/
example (l : Lit) (e : Expr) : Rewrites (.lit l (some .questionMark)) (.lit l (some (.range 0 1))) ∧
    Rewrites (.group e (some .asterisk)) (.group e (some (.min 0))) ∧
    Rewrites (.group e (some .plus)) (.group e (some (.min 1))) ∧
    Rewrites (.lit (.group false [.range '0' '9']) none) (.lit (.cls .digit) none) := by
  refine ⟨.quantLit fun n => by simp only [QuantSet]; omega, .quantGroup fun n => by simp [QuantSet],
    .quantGroup fun n => by simp [QuantSet], .chars fun c => ?_⟩
  simp only [LitSet, ItemSet, ClassSet, List.mem_singleton, exists_eq_left]
  constructor
  · rintro ⟨h1, h2⟩
    have h1' : 48 ≤ c.toNat := h1
    have h2' : c.toNat ≤ 57 := h2
    have key : ∀ n, 48 ≤ n → n ≤ 57 → Char.ofNat n ∈ ['0', '1', '2', '3', '4', '5', '6', '7', '8', '9'] := by
      intro n h1 h2
      have : n = 48 ∨ n = 49 ∨ n = 50 ∨ n = 51 ∨ n = 52 ∨ n = 53 ∨ n = 54 ∨ n = 55 ∨ n = 56 ∨ n = 57 := by omega
      rcases this with rfl | rfl | rfl | rfl | rfl | rfl | rfl | rfl | rfl | rfl <;> decide
    rw [← Char.ofNat_toNat c]
    exact key _ h1' h2'
  · intro h
    simp only [List.mem_cons, List.not_mem_nil, or_false] at h
    rcases h with rfl | rfl | rfl | rfl | rfl | rfl | rfl | rfl | rfl | rfl <;> decide

end Pango.Props
