import Verif.Props.Matching
import Verif.Proofs.FragFirst

/-!
# C10 for all patterns: what the matcher takes for a match

`Taken` (in `Spec.RegexStart`) is the regular language of the pattern, except that the first round of a
repeated group at the very start of the string may not be counted.
-/

namespace Pango.Props

open Pango Pango.Fsm Pango.Regex Pango.Spec

variable [Unicode]

/-- C10 for all patterns that can be compiled, with the language that the code implements in place of the
regular language: every answer is the one of `Taken`, and if no repeated group matches the empty string then
there is an answer for every string.  Missing: that `Taken` is the regular language, which is false in
general. -/
theorem c10_exact_partial (e : Expr) (hc : ¬ HasEmptySeq e) :
    (∀ v b, Answers e v b → (b = true ↔ Taken e v)) ∧
    (RepeatsNonEmpty e → ∀ v, ∃ b, Answers e v b) := by
  obtain ⟨nfa, h1, bd⟩ := nfaOfAst_bundle hc
  constructor
  · rintro v b ⟨nfa', fuel, h2, h3⟩
    rw [h1] at h2
    cases h2
    obtain ⟨runs, h4, h5⟩ := simulate_fed h3
    rw [h4.isAccepting bd.wf h5, ← frag_taken e hc 0 1 2 v]
    have hfin : nfa.IsFinal 1 := (bd.finals 1).2 (.inl rfl)
    have key := bd.runsAt_final hfin v
    simp only [List.mem_singleton, exists_eq_left, true_and] at key
    rw [← key]
    constructor
    · rintro ⟨r, hr, hf⟩
      refine ⟨r, hr, ?_⟩
      rcases (bd.finals _).1 hf with h | ⟨r', hr', h⟩
      · exact h
      · rw [List.mem_singleton.1 hr'] at h; exact h
    · rintro ⟨r, hr, h⟩
      exact ⟨r, hr, h ▸ hfin⟩
  · intro hr v
    obtain ⟨nfa', h2, fuel, h3⟩ := c11_terminates_partial e hc hr
    obtain ⟨b, h4⟩ := h3 v
    exact ⟨b, nfa', fuel, h2, h4⟩

/-- `(a?b)+` takes `bb` for a match: the first `b` is not counted, the second is. -/
example : Taken optThenB "bb".toList ∧ Answers optThenB "bb".toList true := by
  refine ⟨.inr ⟨false, ?_⟩, _, 20, nfa_optThenB, by with_unfolding_all rfl⟩
  have b0 : Begins (.lit (.mtch 'b') none) true ['b'] := .lit (by simp [LitSet])
  have b1 : Begins (.concat [.lit (.mtch 'b') none]) true ['b'] := Begins.here (v := []) b0 .nil
  have b2 : Begins (.concat [.lit (.mtch 'a') (some .questionMark), .lit (.mtch 'b') none]) false ['b'] :=
    .later (.inl rfl) b1
  have m1 : Matches (.lit (.mtch 'a') (some .questionMark)) [] := .lit (.inl rfl) (by simp)
  have m2 : Matches (.lit (.mtch 'b') none) ['b'] := .lit rfl (by simp [LitSet])
  exact Begins.rounds (u := ['b']) (ws := [['b']]) b2
    (by simpa using Matches.cons m1 (Matches.cons (v := []) m2 .nil)) (Nat.le_refl 1)

/-- It does not take `b`, which it should. -/
example : ¬ Taken optThenB "b".toList ∧ Matches optThenB "b".toList := by
  have hm : Matches optThenB "b".toList := by
    have m1 : Matches (.lit (.mtch 'a') (some .questionMark)) [] := .lit (.inl rfl) (by simp)
    have m2 : Matches (.lit (.mtch 'b') none) ['b'] := .lit rfl (by simp [LitSet])
    exact Matches.group (q := some .plus) (ws := [['b']]) (Nat.le_refl 1)
      (by simpa using Matches.cons m1 (Matches.cons (v := []) m2 .nil))
  refine ⟨fun ht => ?_, hm⟩
  have := ((c10_exact_partial optThenB (by simp [optThenB, HasEmptySeq, AnyEmptySeq])).1 "b".toList false
    ⟨_, 20, nfa_optThenB, by with_unfolding_all rfl⟩).2 ht
  cases this

/-! ## Which errors are possible -/

mutual

/-- Groups that may be entered before the first character is read begin with a literal, or their quantifier is
one of those given. -/
def StartGroups (P : Quant → Prop) : Expr → Prop
  | .concat es => StartGroupsSeq P es
  | .empty => True
  | .alt l r => StartGroups P l ∧ StartGroups P r
  | .lit _ _ => True
  | .group e none => StartGroups P e
  | .group e (some q) => StartGroups P e ∧ (P q ∨ BeginsWithLiteral e)

/-- `StartGroups` for a sequence: a tree is at the start if those before it match the empty string. -/
def StartGroupsSeq (P : Quant → Prop) : List Expr → Prop
  | [] => True
  | e :: es => StartGroups P e ∧ (Matches e [] → StartGroupsSeq P es)

end

/-- `*`, `+` and `{n,}`. -/
def NoMost : Quant → Prop
  | .asterisk | .plus | .min _ => True
  | _ => False

/-- `*`, `?` and `{0,n}`. -/
def NoLeast : Quant → Prop
  | .asterisk | .questionMark => True
  | .range lo _ => lo = 0
  | .min lo => lo = 0
  | .max n => n = 0
  | .plus => False

mutual

theorem skips_matches (e : Expr) (h : Skips e) : Matches e [] := by
  match e with
  | .concat es => rw [Skips] at h; exact skipsAll_matches es h
  | .empty => exact .empty
  | .alt l r =>
    rw [Skips] at h
    rcases h with h | h
    · exact .altL (skips_matches l h)
    · exact .altR (skips_matches r h)
  | .lit l none => simp [Skips] at h
  | .lit l (some q) => rw [Skips] at h; exact .lit h (by simp)
  | .group e none =>
    rw [Skips] at h
    exact Matches.group (ws := [[]]) rfl (by simpa using skips_matches e h)
  | .group e (some q) => rw [Skips] at h; exact Matches.group (ws := []) h (by simp)

theorem skipsAll_matches (es : List Expr) (h : SkipsAll es) : Matches (.concat es) [] := by
  match es with
  | [] => exact .nil
  | e :: es =>
    rw [SkipsAll] at h
    exact Matches.cons (u := []) (v := []) (skips_matches e h.1) (skipsAll_matches es h.2)

end

theorem begins_nonempty {e : Expr} {b : Bool} {w : List Char} (h : Begins e b w) : w ≠ [] := by
  induction h with
  | lit => simp
  | rep h => exact h
  | altL _ ih => exact ih
  | altR _ ih => exact ih
  | here _ _ ih => simp [ih]
  | later _ _ ih => exact ih
  | group _ ih => exact ih
  | rounds _ _ _ ih => simp [ih]

mutual

theorem literal_nonempty (e : Expr) (h : BeginsWithLiteral e) {w : List Char} (hm : Matches e w) : w ≠ [] := by
  match e with
  | .concat es => rw [BeginsWithLiteral] at h; exact literal_nonempty_seq es h hm
  | .empty => simp [BeginsWithLiteral] at h
  | .alt l r =>
    rw [BeginsWithLiteral] at h
    cases hm with
    | altL hm => exact literal_nonempty l h.1 hm
    | altR hm => exact literal_nonempty r h.2 hm
  | .lit l none =>
    cases hm with
    | lit h1 _ => rintro rfl; cases h1
  | .lit l (some q) => simp [BeginsWithLiteral] at h
  | .group e none =>
    rw [BeginsWithLiteral] at h
    cases hm with
    | @group _ _ ws h1 h2 =>
      obtain ⟨u, rfl⟩ := List.length_eq_one_iff.1 h1
      simpa using literal_nonempty e h (h2 u (by simp))
  | .group _ (some _) => simp [BeginsWithLiteral] at h

theorem literal_nonempty_seq (es : List Expr) (h : FirstBeginsWithLiteral es) {w : List Char}
    (hm : Matches (.concat es) w) : w ≠ [] := by
  match es with
  | [] => simp [FirstBeginsWithLiteral] at h
  | e :: es =>
    rw [FirstBeginsWithLiteral] at h
    cases hm with
    | cons h1 h2 => simp [literal_nonempty e h h1]

end

/-- A pattern that begins with a literal is not passed over, and its rounds are counted. -/
theorem begins_counted {e : Expr} {b : Bool} {w : List Char} (h : Begins e b w) :
    BeginsWithLiteral e → b = true := by
  induction h with
  | lit => exact fun _ => rfl
  | rep => intro h; simp [BeginsWithLiteral] at h
  | altL _ ih => intro h; rw [BeginsWithLiteral] at h; exact ih h.1
  | altR _ ih => intro h; rw [BeginsWithLiteral] at h; exact ih h.2
  | here _ _ ih => intro h; rw [BeginsWithLiteral, FirstBeginsWithLiteral] at h; exact ih h
  | @later e es b w hs _ _ =>
    intro h
    rw [BeginsWithLiteral, FirstBeginsWithLiteral] at h
    exact absurd rfl (literal_nonempty e h (skips_matches e hs))
  | group _ ih => intro h; rw [BeginsWithLiteral] at h; exact ih h
  | rounds => intro h; simp [BeginsWithLiteral] at h

theorem begins_matches {e : Expr} {b : Bool} {w : List Char} (h : Begins e b w) :
    StartGroups NoMost e → Matches e w := by
  induction h with
  | lit h => exact fun _ => .lit rfl (by simpa using h)
  | rep _ h1 h2 => exact fun _ => .lit h1 h2
  | altL _ ih => intro h; rw [StartGroups] at h; exact .altL (ih h.1)
  | altR _ ih => intro h; rw [StartGroups] at h; exact .altR (ih h.2)
  | here _ hm ih => intro h; rw [StartGroups, StartGroupsSeq] at h; exact .cons (ih h.1) hm
  | later hs _ ih =>
    intro h
    rw [StartGroups, StartGroupsSeq] at h
    have h0 := skips_matches _ hs
    exact Matches.cons (u := []) h0 (ih (by rw [StartGroups]; exact h.2 h0))
  | group _ ih =>
    intro h
    rw [StartGroups] at h
    have := Matches.group (q := none) (ws := [_]) rfl (by simpa using ih h)
    simpa using this
  | @rounds e q b u ws hb hws hq ih =>
    intro h
    rw [StartGroups] at h
    have := Matches.group (e := e) (q := some q) (ws := u :: ws) ?_ ?_
    · simpa using this
    · rw [List.length_cons]
      rcases h.2 with h | h
      · cases q <;> cases b <;> simp_all [NoMost, QuantSet] <;> omega
      · rw [begins_counted hb h] at hq
        exact hq
    · intro w hw
      rcases List.mem_cons.1 hw with rfl | hw
      · exact ih h.1
      · exact hws w hw

theorem taken_matches {e : Expr} (hs : StartGroups NoMost e) {w : List Char} (h : Taken e w) : Matches e w := by
  rcases h with ⟨rfl, h⟩ | ⟨b, h⟩
  · exact skips_matches e h
  · exact begins_matches h hs

/-- The first word that is not empty. -/
theorem first_nonempty {ws : List (List Char)} (h : ws.flatten ≠ []) : ∃ pre u post, ws = pre ++ u :: post ∧
    u ≠ [] ∧ ws.flatten = u ++ post.flatten := by
  induction ws with
  | nil => simp at h
  | cons w ws ih =>
    cases w with
    | cons c w => exact ⟨[], c :: w, ws, rfl, by simp, rfl⟩
    | nil =>
      obtain ⟨pre, u, post, h1, h2, h3⟩ := ih (by simpa using h)
      exact ⟨[] :: pre, u, post, by rw [h1]; rfl, h2, by simpa using h3⟩

omit [Unicode] in
theorem noLeast_less {q : Quant} (hq : NoLeast q) {n m : Nat} (h : QuantSet (some q) n) (hm : m ≤ n) :
    QuantSet (some q) m := by
  cases q <;> simp_all [NoLeast, QuantSet] <;> omega

mutual

theorem matches_taken (e : Expr) (hs : StartGroups NoLeast e) {w : List Char} (hm : Matches e w) :
    Taken e w := by
  match e with
  | .concat es =>
    rw [StartGroups] at hs
    exact matches_taken_seq es hs hm
  | .empty => cases hm; exact .inl ⟨rfl, by rw [Skips]; trivial⟩
  | .alt l r =>
    rw [StartGroups] at hs
    cases hm with
    | altL hm =>
      rcases matches_taken l hs.1 hm with ⟨h1, h2⟩ | ⟨b, h⟩
      · exact .inl ⟨h1, by rw [Skips]; exact .inl h2⟩
      · exact .inr ⟨b, .altL h⟩
    | altR hm =>
      rcases matches_taken r hs.2 hm with ⟨h1, h2⟩ | ⟨b, h⟩
      · exact .inl ⟨h1, by rw [Skips]; exact .inr h2⟩
      · exact .inr ⟨b, .altR h⟩
  | .lit l none =>
    cases hm with
    | lit h1 h2 =>
      obtain ⟨c, rfl⟩ := List.length_eq_one_iff.1 h1
      exact .inr ⟨true, .lit (h2 c (by simp))⟩
  | .lit l (some q) =>
    cases hm with
    | lit h1 h2 =>
      by_cases hw : w = []
      · subst hw; exact .inl ⟨rfl, by rw [Skips]; exact h1⟩
      · exact .inr ⟨false, .rep hw h1 h2⟩
  | .group e none =>
    rw [StartGroups] at hs
    cases hm with
    | @group _ _ ws h1 h2 =>
      obtain ⟨u, rfl⟩ := List.length_eq_one_iff.1 h1
      simp only [List.flatten_cons, List.flatten_nil, List.append_nil]
      rcases matches_taken e hs (h2 u (by simp)) with ⟨h3, h4⟩ | ⟨b, h⟩
      · exact .inl ⟨h3, by rw [Skips]; exact h4⟩
      · exact .inr ⟨b, .group h⟩
  | .group e (some q) =>
    rw [StartGroups] at hs
    cases hm with
    | @group _ _ ws h1 h2 =>
      rcases hs.2 with hq | hl
      · by_cases hw : ws.flatten = []
        · exact .inl ⟨hw, by rw [Skips]; exact noLeast_less hq h1 (Nat.zero_le _)⟩
        · obtain ⟨pre, u, post, h3, h4, h5⟩ := first_nonempty hw
          rw [h3] at h1 h2
          rcases matches_taken e hs.1 (h2 u (by simp)) with ⟨h6, _⟩ | ⟨b, h⟩
          · exact absurd h6 h4
          · rw [h5]
            refine .inr ⟨false, .rounds h (fun w hw => h2 w (by simp [hw])) (noLeast_less hq h1 ?_)⟩
            simp only [List.length_append, List.length_cons]
            split <;> omega
      · cases ws with
        | nil => exact .inl ⟨rfl, by rw [Skips]; exact h1⟩
        | cons u ws =>
          have hu := h2 u (by simp)
          rcases matches_taken e hs.1 hu with ⟨h6, _⟩ | ⟨b, h⟩
          · exact absurd h6 (literal_nonempty e hl hu)
          · refine .inr ⟨false, .rounds h (fun w hw => h2 w (by simp [hw])) ?_⟩
            rw [begins_counted h hl]
            exact h1

theorem matches_taken_seq (es : List Expr) (hs : StartGroupsSeq NoLeast es) {w : List Char}
    (hm : Matches (.concat es) w) : Taken (.concat es) w := by
  match es with
  | [] => cases hm; exact .inl ⟨rfl, by rw [Skips, SkipsAll]; trivial⟩
  | e :: es =>
    rw [StartGroupsSeq] at hs
    cases hm with
    | @cons _ _ u v h1 h2 =>
      rcases matches_taken e hs.1 h1 with ⟨h3, h4⟩ | ⟨b, h⟩
      · subst h3
        rcases matches_taken_seq es (hs.2 h1) h2 with ⟨h5, h6⟩ | ⟨b, h⟩
        · exact .inl ⟨h5, by rw [Skips, SkipsAll]; rw [Skips] at h6; exact ⟨h4, h6⟩⟩
        · exact .inr ⟨false, .later h4 h⟩
      · exact .inr ⟨b, .here h h2⟩

end

/-- The part of C10 about false positives: if the counted groups at the start of the pattern that do not begin
with a literal have no upper bound, then no string is accepted that the pattern does not match.  Missing: the
other patterns, for which the claim is false in general. -/
theorem c10_accepts_partial (e : Expr) (hc : ¬ HasEmptySeq e) (hs : StartGroups NoMost e) (v : List Char)
    (h : Answers e v true) : Matches e v :=
  taken_matches hs (((c10_exact_partial e hc).1 v true h).1 rfl)

/-- The part of C10 about false negatives: if those groups have no lower bound, then no string is rejected that
the pattern matches.  Missing: the other patterns, for which the claim is false in general. -/
theorem c10_rejects_partial (e : Expr) (hc : ¬ HasEmptySeq e) (hs : StartGroups NoLeast e) (v : List Char)
    (h : Answers e v false) : ¬ Matches e v := by
  intro hm
  have := ((c10_exact_partial e hc).1 v false h).2 (matches_taken e hs hm)
  cases this

/-- `(a?b)+` is a pattern of the first kind and not of the second. -/
example : StartGroups NoMost optThenB ∧ Answers optThenB "bab".toList true ∧ ¬ StartGroups NoLeast optThenB := by
  refine ⟨?_, ⟨_, 20, nfa_optThenB, by with_unfolding_all rfl⟩, ?_⟩
  · simp [optThenB, StartGroups, StartGroupsSeq, NoMost]
  · simp [optThenB, StartGroups, NoLeast, BeginsWithLiteral, FirstBeginsWithLiteral]

/-- `(a?b)?`. -/
def optAll : Expr :=
  .group (.concat [.lit (.mtch 'a') (some .questionMark), .lit (.mtch 'b') none]) (some .questionMark)

omit [Unicode] in
theorem nfa_optAll : nfaOfAst optAll = .ok ⟨0, [⟨0, false, [(.eps, [2])]⟩, ⟨1, true, []⟩,
    ⟨2, false, [(.quantified .questionMark, [1]), (.eps, [4])]⟩, ⟨3, false, [(.literal (.mtch 'b'), [2])]⟩,
    ⟨4, false, [(.quantified .questionMark, [3]), (.literal (.mtch 'a'), [4])]⟩]⟩ := by decide

/-- It is of the second kind and not of the first: it rejects `ba` and rightly so, and accepts `bb`. -/
example : StartGroups NoLeast optAll ∧ Answers optAll "ba".toList false ∧ ¬ StartGroups NoMost optAll ∧
    Answers optAll "bb".toList true := by
  refine ⟨?_, ⟨_, 20, nfa_optAll, by with_unfolding_all rfl⟩, ?_, ⟨_, 20, nfa_optAll, by with_unfolding_all rfl⟩⟩
  · simp [optAll, StartGroups, StartGroupsSeq, NoLeast]
  · simp [optAll, StartGroups, NoMost, BeginsWithLiteral, FirstBeginsWithLiteral]

example : parse .debug "(a?b)?".toList = .ok (.ok optAll) := rfl

end Pango.Props
