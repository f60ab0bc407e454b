import Verif.Model.Grammar

/-!
# C26, C27: building grammars
-/

namespace Pango.Props

open Pango Pango.Parse

variable {V T : Type}

/-- The calls a user can make on a `GrammarBuilder`. -/
inductive BuilderCall (V T : Type) where
  | setStart (v : V)
  | addRule (v : V) (body : Body V T)
  | addRules (v : V) (bodies : List (Body V T))

/-- Specification: the start variable set last. -/
def lastStart : List (BuilderCall V T) → Option V
  | [] => none
  | .setStart v :: calls => (lastStart calls).or (some v)
  | _ :: calls => lastStart calls

/-- Specification: `v` may be replaced by `body` according to some call.  A rule given with an empty
body is the rule with the body `[ε]`. -/
def Added (calls : List (BuilderCall V T)) (v : V) (body : Body V T) : Prop :=
  ∃ b, (BuilderCall.addRule v b ∈ calls ∨ ∃ bs, BuilderCall.addRules v bs ∈ calls ∧ b ∈ bs) ∧
    body = if b.isEmpty then [.eps] else b

variable [DecidableEq V] [DecidableEq T]

/-- Make a call. -/
def BuilderCall.run (b : GrammarBuilder V T) : BuilderCall V T → GrammarBuilder V T
  | .setStart v => b.setStart v
  | .addRule v body => (b.addRule v body).2
  | .addRules v bodies => b.addRules v bodies

/-- Make all the calls on a new builder. -/
def runCalls (calls : List (BuilderCall V T)) : GrammarBuilder V T :=
  calls.foldl BuilderCall.run .new

omit [DecidableEq V] [DecidableEq T] in
private theorem normalize_eq (b : Body V T) : normalizeBody b = if b.isEmpty then [.eps] else b := by
  cases b <;> rfl

private theorem mem_insertNew {α : Type} [DecidableEq α] {a x : α} {l : List α} :
    x ∈ insertNew a l ↔ x = a ∨ x ∈ l := by
  unfold insertNew
  split
  · constructor
    · exact .inr
    · rintro (rfl | h) <;> assumption
  · simp [or_comm]

private theorem nodup_insertNew {α : Type} [DecidableEq α] {a : α} {l : List α} (h : l.Nodup) :
    (insertNew a l).Nodup := by
  unfold insertNew
  split
  · exact h
  · rename_i hn
    refine List.nodup_append.2 ⟨h, by simp, ?_⟩
    intro x hx y hy hxy
    simp at hy
    subst hxy hy
    exact hn hx

private theorem addRules_rules (bodies : List (Body V T)) (v : V) (b : GrammarBuilder V T) :
    (b.addRules v bodies).start = b.start ∧ (b.rules.Nodup → (b.addRules v bodies).rules.Nodup) ∧
    ∀ r, r ∈ (b.addRules v bodies).rules ↔
      r ∈ b.rules ∨ ∃ body ∈ bodies, r = (v, normalizeBody body) := by
  induction bodies generalizing b with
  | nil => simp [GrammarBuilder.addRules]
  | cons body bodies ih =>
    obtain ⟨h1, h2, h3⟩ := ih (b.addRule v body).2
    refine ⟨h1, fun hn => h2 (nodup_insertNew hn), fun r => ?_⟩
    have : (b.addRules v (body :: bodies)) = ((b.addRule v body).2).addRules v bodies := rfl
    rw [this, h3 r]
    simp only [GrammarBuilder.addRule, mem_insertNew, List.mem_cons, exists_eq_or_imp]
    constructor
    · rintro ((h | h) | h)
      · exact .inr (.inl h)
      · exact .inl h
      · exact .inr (.inr h)
    · rintro (h | h | h)
      · exact .inl (.inr h)
      · exact .inl (.inl h)
      · exact .inr h

private theorem foldl_run (calls : List (BuilderCall V T)) (b : GrammarBuilder V T) :
    (calls.foldl BuilderCall.run b).start = (lastStart calls).or b.start ∧
    (b.rules.Nodup → (calls.foldl BuilderCall.run b).rules.Nodup) ∧
    ∀ v body, (v, body) ∈ (calls.foldl BuilderCall.run b).rules ↔
      (v, body) ∈ b.rules ∨ Added calls v body := by
  induction calls generalizing b with
  | nil => simp [lastStart, Added]
  | cons call calls ih =>
    obtain ⟨h1, h2, h3⟩ := ih (call.run b)
    simp only [List.foldl_cons]
    rw [h1]
    cases call with
    | setStart s =>
      refine ⟨?_, fun hn => h2 hn, fun v body => ?_⟩
      · simp only [BuilderCall.run, GrammarBuilder.setStart, lastStart]
        cases lastStart calls <;> rfl
      · rw [h3]
        simp only [BuilderCall.run, GrammarBuilder.setStart, Added, List.mem_cons]
        simp
    | addRule w c =>
      refine ⟨rfl, fun hn => h2 (nodup_insertNew hn), fun v body => ?_⟩
      rw [h3]
      simp only [BuilderCall.run, GrammarBuilder.addRule, mem_insertNew, Prod.mk.injEq, Added,
        List.mem_cons]
      constructor
      · rintro ((⟨rfl, rfl⟩ | h) | ⟨x, hx, hb⟩)
        · exact .inr ⟨c, .inl (.inl rfl), normalize_eq c⟩
        · exact .inl h
        · refine .inr ⟨x, ?_, hb⟩
          rcases hx with hx | ⟨bs, hx, hm⟩
          · exact .inl (.inr hx)
          · exact .inr ⟨bs, .inr hx, hm⟩
      · rintro (h | ⟨x, hx, hb⟩)
        · exact .inl (.inr h)
        · rcases hx with (hx | hx) | ⟨bs, hx | hx, hm⟩
          · cases hx; exact .inl (.inl ⟨rfl, hb.trans (normalize_eq _).symm⟩)
          · exact .inr ⟨x, .inl hx, hb⟩
          · cases hx
          · exact .inr ⟨x, .inr ⟨bs, hx, hm⟩, hb⟩
    | addRules w cs =>
      obtain ⟨a1, a2, a3⟩ := addRules_rules cs w b
      refine ⟨by simp only [BuilderCall.run, a1, lastStart], fun hn => h2 (a2 hn), fun v body => ?_⟩
      rw [h3]
      simp only [BuilderCall.run, a3, Prod.mk.injEq, Added, List.mem_cons]
      constructor
      · rintro ((h | ⟨c, hc, rfl, rfl⟩) | ⟨x, hx, hb⟩)
        · exact .inl h
        · exact .inr ⟨c, .inr ⟨cs, .inl rfl, hc⟩, normalize_eq c⟩
        · refine .inr ⟨x, ?_, hb⟩
          rcases hx with hx | ⟨bs, hx, hm⟩
          · exact .inl (.inr hx)
          · exact .inr ⟨bs, .inr hx, hm⟩
      · rintro (h | ⟨x, hx, hb⟩)
        · exact .inl (.inl h)
        · rcases hx with (hx | hx) | ⟨bs, hx | hx, hm⟩
          · cases hx
          · exact .inr ⟨x, .inl hx, hb⟩
          · cases hx; exact .inl (.inr ⟨x, hm, rfl, hb.trans (normalize_eq x).symm⟩)
          · exact .inr ⟨x, .inr ⟨bs, hx, hm⟩, hb⟩

/-- Specification: there is a rule for `v`. -/
def HasRule (calls : List (BuilderCall V T)) (v : V) : Prop := ∃ body, Added calls v body

/-- Specification: `v` is the start variable or occurs in the body of a rule. -/
def Used (calls : List (BuilderCall V T)) (v : V) : Prop :=
  lastStart calls = some v ∨ ∃ head body, Added calls head body ∧ Sym.var v ∈ body

omit [DecidableEq V] [DecidableEq T] in
private theorem mem_bodyVariables {v : V} {body : Body V T} :
    v ∈ bodyVariables body ↔ Sym.var v ∈ body := by
  simp only [bodyVariables, List.mem_filterMap]
  constructor
  · rintro ⟨s, hs, h⟩
    cases s <;> simp at h
    subst h; exact hs
  · intro h; exact ⟨.var v, h, rfl⟩

/-- C26.  After any calls, building crashes exactly if no start variable was set or some used variable
has no rule; otherwise it returns a grammar with the start variable set last and exactly the added
rules, without duplicates. -/
theorem c26_build (calls : List (BuilderCall V T)) :
    ((runCalls calls).build = .panic ∧
      (lastStart calls = none ∨ ∃ v, Used calls v ∧ ¬ HasRule calls v)) ∨
    (∃ g, (runCalls calls).build = .ok g ∧
      (∀ v, Used calls v → HasRule calls v) ∧
      lastStart calls = some g.start ∧
      g.rules.Nodup ∧ ∀ v body, (v, body) ∈ g.rules ↔ Added calls v body) := by
  obtain ⟨h1, h2, h3⟩ := foldl_run calls (.new : GrammarBuilder V T)
  change (runCalls calls).start = _ at h1
  change _ → (runCalls calls).rules.Nodup at h2
  change ∀ v body, (v, body) ∈ (runCalls calls).rules ↔ _ at h3
  have hst : (runCalls calls).start = lastStart calls := by
    rw [h1]; simp [GrammarBuilder.new]
  have hm : ∀ v body, (v, body) ∈ (runCalls calls).rules ↔ Added calls v body := by
    intro v body; rw [h3]; simp [GrammarBuilder.new]
  have hheads : ∀ v, v ∈ (runCalls calls).rules.map Prod.fst ↔ HasRule calls v := by
    intro v
    simp only [List.mem_map, Prod.exists, exists_and_right, exists_eq_right, hm]
    rfl
  cases hl : lastStart calls with
  | none =>
    left
    refine ⟨?_, .inl rfl⟩
    simp [GrammarBuilder.build, hst, hl]
  | some st =>
    have hused : ∀ v, v ∈ st :: (runCalls calls).rules.flatMap (fun r => bodyVariables r.2) ↔
        Used calls v := by
      intro v
      simp only [List.mem_cons, List.mem_flatMap, Prod.exists, mem_bodyVariables, Used, hl,
        Option.some.injEq, hm]
      constructor
      · rintro (rfl | h)
        · exact .inl rfl
        · exact .inr h
      · rintro (rfl | h)
        · exact .inl rfl
        · exact .inr h
    by_cases hall : ∀ v, Used calls v → HasRule calls v
    · right
      refine ⟨⟨st, (runCalls calls).rules⟩, ?_, hall, rfl, h2 (by simp [GrammarBuilder.new]), hm⟩
      simp only [GrammarBuilder.build, hst, hl]
      rw [if_pos]
      rw [List.all_eq_true]
      intro v hv
      rw [List.contains_iff_mem, hheads]
      exact hall v ((hused v).1 hv)
    · left
      simp only [Classical.not_forall] at hall
      obtain ⟨v, hu, hn⟩ := hall
      refine ⟨?_, .inr ⟨v, hu, hn⟩⟩
      simp only [GrammarBuilder.build, hst, hl]
      rw [if_neg]
      rw [List.all_eq_true]
      intro h
      have := h v ((hused v).2 hu)
      rw [List.contains_iff_mem, hheads] at this
      exact hn this

/-- Both cases happen. -/
example : (runCalls [.addRules "S" [[.term "a", .var "S"], []], .setStart "S"]).build
    = .ok (⟨"S", [("S", [.term "a", .var "S"]), ("S", [.eps])]⟩ : Grammar String String) := by decide
example : (runCalls ([.addRule "S" [.term "a", .var "B"], .setStart "S"] :
    List (BuilderCall String String))).build = .panic := by decide

/-- C27.  Two sequences of calls that set the same start variable last and add the same rules (in any
order, any number of times, one by one or together, an empty body written either way) build the same
grammar, or both crash. -/
theorem c27_same_rules_same_grammar (calls calls' : List (BuilderCall V T))
    (hs : lastStart calls = lastStart calls')
    (hr : ∀ v body, Added calls v body ↔ Added calls' v body) :
    ((runCalls calls).build = .panic ∧ (runCalls calls').build = .panic) ∨
    ∃ g g', (runCalls calls).build = .ok g ∧ (runCalls calls').build = .ok g' ∧
      g.start = g'.start ∧ g.rules.Perm g'.rules := by
  have hh : ∀ v, HasRule calls v ↔ HasRule calls' v := fun v => by simp only [HasRule, hr]
  have hu : ∀ v, Used calls v ↔ Used calls' v := fun v => by simp only [Used, hr, hs]
  rcases c26_build calls with ⟨p, c⟩ | ⟨g, e, c, s, n, m⟩ <;>
    rcases c26_build calls' with ⟨p', c'⟩ | ⟨g', e', c', s', n', m'⟩
  · exact .inl ⟨p, p'⟩
  · exfalso
    rcases c with c | ⟨v, hv, hn⟩
    · rw [hs, s'] at c; simp at c
    · exact hn ((hh v).2 (c' v ((hu v).1 hv)))
  · exfalso
    rcases c' with c' | ⟨v, hv, hn⟩
    · rw [← hs, s] at c'; simp at c'
    · exact hn ((hh v).1 (c v ((hu v).2 hv)))
  · right
    refine ⟨g, g', e, e', ?_, (List.perm_ext_iff_of_nodup n n').2 ?_⟩
    · rw [hs, s'] at s; simpa using s.symm
    · rintro ⟨v, body⟩
      rw [m, m', hr]

/-- C27, permuted and repeated calls: adding rules in another order and again changes nothing. -/
theorem c27_permutation_and_repetition (calls calls' : List (BuilderCall V T))
    (hs : lastStart calls = lastStart calls') (hp : ∀ c, c ∈ calls ↔ c ∈ calls') :
    ((runCalls calls).build = .panic ∧ (runCalls calls').build = .panic) ∨
    ∃ g g', (runCalls calls).build = .ok g ∧ (runCalls calls').build = .ok g' ∧
      g.start = g'.start ∧ g.rules.Perm g'.rules :=
  c27_same_rules_same_grammar calls calls' hs (fun v body => by simp only [Added, hp])

/-- C27: `add_rule` says whether the rule is new. -/
theorem c27_add_rule_reports_new (calls : List (BuilderCall V T)) (v : V) (body : Body V T) :
    ((runCalls calls).addRule v body).1 = true ↔
      ¬ Added calls v (if body.isEmpty then [.eps] else body) := by
  obtain ⟨_, _, h3⟩ := foldl_run calls (.new : GrammarBuilder V T)
  change ∀ v body, (v, body) ∈ (runCalls calls).rules ↔ _ at h3
  simp only [GrammarBuilder.addRule, normalize_eq, Bool.not_eq_true', decide_eq_false_iff_not, h3]
  simp [GrammarBuilder.new]

/-- Two different histories that meet the hypotheses. -/
example : let calls : List (BuilderCall String String) :=
      [.setStart "X", .addRule "S" [], .addRules "S" [[.term "a"], [.term "a"]], .setStart "S"]
    let calls' : List (BuilderCall String String) :=
      [.addRule "S" [.term "a"], .addRules "S" [[.eps]], .setStart "S"]
    lastStart calls = lastStart calls' ∧ (∀ v body, Added calls v body ↔ Added calls' v body) ∧
    (runCalls calls).build = .ok ⟨"S", [("S", [.eps]), ("S", [.term "a"])]⟩ ∧
    (runCalls calls').build = .ok ⟨"S", [("S", [.term "a"]), ("S", [.eps])]⟩ := by
  refine ⟨by decide, ?_, by decide, by decide⟩
  intro v body
  simp only [Added, List.mem_cons, BuilderCall.addRule.injEq, BuilderCall.addRules.injEq,
    List.not_mem_nil, or_false, false_or, reduceCtorEq]
  constructor
  · rintro ⟨b, (⟨rfl, rfl⟩ | ⟨bs, ⟨rfl, rfl⟩, hb⟩), rfl⟩
    · exact ⟨[.eps], .inr ⟨_, ⟨rfl, rfl⟩, by simp⟩, rfl⟩
    · simp at hb; subst hb; exact ⟨_, .inl ⟨rfl, rfl⟩, rfl⟩
  · rintro ⟨b, (⟨rfl, rfl⟩ | ⟨bs, ⟨rfl, rfl⟩, hb⟩), rfl⟩
    · exact ⟨_, .inr ⟨_, ⟨rfl, rfl⟩, by simp⟩, rfl⟩
    · simp at hb; subst hb; exact ⟨[], .inl ⟨rfl, rfl⟩, rfl⟩

end Pango.Props
