import Verif.Proofs.Reach
import Verif.Props.Parse

/-!
# C59: rules that cannot be reached from the start variable
-/

namespace Pango.Props

open Pango Pango.Parse Pango.Spec

/-- C59, the full claim: a parser depends only on the rules that can be reached from the start variable, and not on
the order in which they were added. -/
def C59 : Prop :=
  ∀ (V T : Type) [DecidableEq V] [DecidableEq T] [TerminalEq T] [LawfulTerminalEq T] (g g' : Grammar V T),
    Built g → Built g' → SameReachable g g' →
    ((∃ tbl, IsParser g tbl) ↔ ∃ tbl, IsParser g' tbl) ∧
    ∀ tbl tbl', IsParser g tbl → IsParser g' tbl' →
      ∀ fuel input, parseTokens tbl fuel input = parseTokens tbl' fuel input

/-- `S → x`. -/
def justX : Grammar String String := ⟨"S", [("S", [.term "x"])]⟩

/-- `S → x` and `U → S t`. -/
def xAndU : Grammar String String := ⟨"S", [("S", [.term "x"]), ("U", [.var "S", .term "t"])]⟩

theorem xAndU_reachable {v : String} (h : Reachable justX v) : v = "S" := by
  induction h with
  | start => rfl
  | step _ hr hv ih =>
    subst ih
    simp only [justX, List.mem_cons, Prod.mk.injEq, true_and, List.not_mem_nil, or_false] at hr
    subst hr
    simp at hv

/-- C59 does not hold: `S → x` accepts nothing, but with the rule `U → S t`, which cannot be used, `x` is accepted. -/
theorem c59_false : ¬ C59 := by
  intro h
  have h1 : slrNew justX .insertion 100 = .ok (tableOf justX) := by decide +kernel
  have h2 : slrNew xAndU .insertion 100 = .ok (tableOf xAndU) := by decide +kernel
  have h3 := (h _ _ justX xAndU ⟨[.setStart "S", .addRules "S" [[.term "x"]]], by decide⟩
    ⟨[.setStart "S", .addRules "S" [[.term "x"]], .addRules "U" [[.var "S", .term "t"]]], by decide⟩
    ⟨rfl, fun v β hv => by
      rw [xAndU_reachable hv]
      simp [justX, xAndU]⟩).2 _ _ ⟨_, _, h1⟩ ⟨_, _, h2⟩ 10 ["x"]
  exact absurd h3 (by decide +kernel)

/-! ## What holds -/

variable {V T : Type} [DecidableEq V] [DecidableEq T] [TerminalEq T] [LawfulTerminalEq T] {g g' : Grammar V T}

/-- The start variable is surely followed in both grammars, or nothing can stand behind it in either of them. -/
def SameEnd (g g' : Grammar V T) : Prop :=
  (SurelyFollowed g g.start ∧ SurelyFollowed g' g'.start) ∨ (¬ Followable g g.start ∧ ¬ Followable g' g'.start)

omit [DecidableEq T] [TerminalEq T] [LawfulTerminalEq T] in
theorem entry_same {follow follow' : List (V × List (Sym V T))} (fo : FollowOk g follow) (fo' : FollowOk g' follow')
    (hd : SameEnd g g') : Entry g follow = Entry g' follow' := by
  apply propext
  rcases hd with ⟨h, h'⟩ | ⟨h, h'⟩
  · exact ⟨fun _ => fo'.surely h', fun _ => fo.surely h⟩
  · exact ⟨fun k => absurd (fo.entered _ k).followable h, fun k => absurd (fo'.entered _ k).followable h'⟩

omit [DecidableEq V] [DecidableEq T] [TerminalEq T] [LawfulTerminalEq T] in
theorem SameFollow.symm (h : SameReachable g g') (hf : SameFollow g g') : SameFollow g' g :=
  fun v t hv => (hf v t ((SameReachable.reachable h).2 hv)).symm

/-- The part of C59 that holds: other rules matter only if they change the FOLLOW set of a variable that can be reached,
or whether anything can follow the start variable.  If they do not, there is a parser for both grammars or for none. -/
theorem c59_construction_partial (hg : Built g) (hg' : Built g') (h : SameReachable g g')
    (hf : ∀ v t, Reachable g v → (InFollow g v (.term t) ↔ InFollow g' v (.term t))) (hd : SameEnd g g') :
    ∃ bound, ∀ fuel ≥ bound, ∀ ord ord' : HashOrder,
      (∃ tbl, slrNew g ord fuel = .ok tbl) ↔ ∃ tbl, slrNew g' ord' fuel = .ok tbl := by
  refine ⟨tableFuel g + tableFuel g', fun fuel hfuel ord ord' => ?_⟩
  obtain ⟨c, follow, _, fo, h1⟩ := slrNew_iff hg.wellFormed ord (fuel := fuel) (by omega)
  obtain ⟨c', follow', _, fo', h2⟩ := slrNew_iff hg'.wellFormed ord' (fuel := fuel) (by omega)
  have he := entry_same fo fo' hd
  have hsym := SameReachable.symm h
  have hfsym := SameFollow.symm h hf
  rcases h1 with ⟨k1, tbl, h1, _⟩ | ⟨k1, h1⟩ <;> rcases h2 with ⟨k2, tbl', h2, _⟩ | ⟨k2, h2⟩
  · exact ⟨fun _ => ⟨_, h2⟩, fun _ => ⟨_, h1⟩⟩
  · refine absurd (fun γ p p' k k' n1 n2 => ?_) k2
    rw [← he] at n1 n2
    exact k1 γ p p' k k' (n1.same hsym hfsym) (n2.same hsym hfsym)
  · refine absurd (fun γ p p' k k' n1 n2 => ?_) k1
    rw [he] at n1 n2
    exact k2 γ p p' k k' (n1.same h hf) (n2.same h hf)
  · rw [h1, h2]

/-- And what one parser returns the other returns after the same number of iterations, unless it panics. -/
theorem c59_result_partial (hg : Built g) (hg' : Built g') (h : SameReachable g g')
    (hf : ∀ v t, Reachable g v → (InFollow g v (.term t) ↔ InFollow g' v (.term t))) (hd : SameEnd g g')
    {tbl tbl' : Table V T} (hp : IsParser g tbl) (hp' : IsParser g' tbl') {fuel : Nat} {input : List T}
    {r : Option (Node V T)} (hr : parseTokens tbl fuel input = .ok r) :
    parseTokens tbl' fuel input = .ok r ∨ parseTokens tbl' fuel input = .panic := by
  obtain ⟨c, follow, fo, ok⟩ := hp.ok hg
  obtain ⟨c', follow', fo', ok'⟩ := hp'.ok hg'
  rw [← entry_same fo fo' hd] at ok'
  exact parse_agree ok (ok'.same (SameReachable.symm h) (SameFollow.symm h hf)) hr

omit [DecidableEq V] [DecidableEq T] [TerminalEq T] [LawfulTerminalEq T] in
/-- The hypotheses of both theorems are met if, in both grammars, no rule that cannot be reached has a variable in its
body that can, and moreover the start variable is surely followed or nothing can stand behind it. -/
theorem c59_separate_partial (h : SameReachable g g') (hs : Separate g) (hs' : Separate g')
    (hd : SurelyFollowed g g.start ∨ ¬ Followable g g.start) :
    (∀ v t, Reachable g v → (InFollow g v (.term t) ↔ InFollow g' v (.term t))) ∧ SameEnd g g' := by
  have hfol : ∀ v t, Reachable g v → (InFollow g v (.term t) ↔ InFollow g' v (.term t)) := by
    intro v t hv
    rw [inFollow_iff, inFollow_iff]
    exact ⟨fun k => k.same h hs hv, fun k => k.same (SameReachable.symm h) hs' ((SameReachable.reachable h).1 hv)⟩
  refine ⟨hfol, ?_⟩
  have hst : Reachable g g.start := .start
  have hst' : Reachable g' g'.start := .start
  unfold SameEnd
  rcases hd with k | k
  · exact .inl ⟨k, h.1 ▸ SurelyFollowed.same h hs k hst⟩
  · refine .inr ⟨k, fun k' => k ?_⟩
    have := Followable.same (SameReachable.symm h) hs' k' hst'
    rwa [h.1]

/-- `S → S + n | n`. -/
def sums : Grammar String String := ⟨"S", [("S", [.var "S", .term "+", .term "n"]), ("S", [.term "n"])]⟩

/-- The same rules in the other order, and `U → ( U ) | x`. -/
def sumsAndU : Grammar String String :=
  ⟨"S", [("U", [.term "(", .var "U", .term ")"]), ("S", [.term "n"]), ("U", [.term "x"]),
    ("S", [.var "S", .term "+", .term "n"])]⟩

theorem sums_reachable {v : String} (h : Reachable sums v) : v = "S" := by
  induction h with
  | start => rfl
  | step _ hr hv ih =>
    subst ih
    simp only [sums, List.mem_cons, Prod.mk.injEq, true_and, List.not_mem_nil, or_false] at hr
    rcases hr with rfl | rfl <;> simp at hv <;> exact hv

theorem sums_same : SameReachable sums sumsAndU :=
  ⟨rfl, fun v β hv => by
    rw [sums_reachable hv]
    simp [sums, sumsAndU, or_comm]⟩

theorem sums_separate : Separate sums := by
  intro h β v hr _ _
  simp only [sums, List.mem_cons, Prod.mk.injEq, List.not_mem_nil, or_false] at hr
  rcases hr with ⟨rfl, _⟩ | ⟨rfl, _⟩ <;> exact .start

theorem sumsAndU_separate : Separate sumsAndU := by
  intro h β v hr hv hreach
  have := sums_reachable ((SameReachable.reachable sums_same).2 hreach)
  subst this
  simp only [sumsAndU, List.mem_cons, Prod.mk.injEq, List.not_mem_nil, or_false] at hr
  rcases hr with ⟨rfl, rfl⟩ | ⟨rfl, rfl⟩ | ⟨rfl, rfl⟩ | ⟨rfl, rfl⟩
  · simp at hv
  · exact .start
  · simp at hv
  · exact .start

/-- They meet the hypotheses, and both have parsers. -/
example : Built sums ∧ Built sumsAndU ∧ SameReachable sums sumsAndU ∧ Separate sums ∧ Separate sumsAndU ∧
    Followed sums sums.start ∧ (∃ tbl, IsParser sums tbl) ∧ (∃ tbl, IsParser sumsAndU tbl) ∧
    parseTokens (tableOf sumsAndU) 20 ["n", "+", "n"] = .ok (some (.mk (.var "S") [.mk (.term "n") [],
      .mk (.term "+") [], .mk (.var "S") [.mk (.term "n") []]])) := by
  exact ⟨⟨[.setStart "S", .addRules "S" [[.var "S", .term "+", .term "n"], [.term "n"]]], by decide⟩,
    ⟨[.setStart "S", .addRules "U" [[.term "(", .var "U", .term ")"]], .addRules "S" [[.term "n"]],
      .addRules "U" [[.term "x"]], .addRules "S" [[.var "S", .term "+", .term "n"]]], by decide⟩, sums_same,
    sums_separate, sumsAndU_separate,
    ⟨"S", [], .term "+", [.term "n"], by decide⟩, ⟨tableOf sums, 100, .insertion, by decide +kernel⟩,
    ⟨tableOf sumsAndU, 100, .insertion, by decide +kernel⟩, by decide +kernel⟩

end Pango.Props
