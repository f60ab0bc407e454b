import Verif.Proofs.Machine
import Verif.Props.Unreachable

/-!
# C62: the parser is the SLR(1) machine of the grammar

And what follows from it for C39, C42 and C59.
-/

namespace Pango.Props

open Pango Pango.Parse Pango.Spec

/-- C62, the full claim: for every grammar that has a parser, and every input, the parser returns a tree, or an error, or
does not end, exactly if the SLR(1) machine of the grammar does. -/
def C62 : Prop :=
  ∀ (V T : Type) [DecidableEq V] [DecidableEq T] [TerminalEq T] [LawfulTerminalEq T] (g : Grammar V T) (tbl : Table V T),
    Built g → IsParser g tbl → ∀ input,
      (∀ n, (∃ fuel, parseTokens tbl fuel input = .ok (some n)) ↔ ∃ k, MachineRun g True input k (.tree n)) ∧
      ((∃ fuel, parseTokens tbl fuel input = .ok none) ↔ ∃ k, MachineRun g True input k .error) ∧
      ((∀ fuel, parseTokens tbl fuel input = .diverge) ↔ ∀ k, ∃ x, ShiftReduces g k (.start input) x)

/-- C62 does not hold: the machine of `S → a` accepts `a`. -/
theorem c62_false : ¬ C62 := by
  intro h
  obtain ⟨h1, _, _⟩ := h _ _ tiny _ tiny_built tiny_parser ["a"]
  have hv : Viable tiny [] ("S", ⟨[.term "a"], 0⟩) := .start (by simp [tiny]) ⟨rfl, [.term "a"], rfl, by simp⟩
  have hv' : Viable tiny ([] ++ [.term "a"]) ("S", ⟨[.term "a"], 1⟩) :=
    .read hv ⟨rfl, [], 0, [], rfl, by simp, rfl, rfl⟩
  obtain ⟨fuel, h2⟩ := (h1 (.mk (.var "S") [.mk (.term "a") []])).2
    ⟨1, _, .step (.shift hv ⟨[], [], rfl, rfl⟩ rfl) .refl, .accept hv' rfl trivial (by simp)⟩
  exact c39_nothing_accepted tiny_built tiny_parser tiny_start fuel _ _ h2

/-! ## What holds -/

variable {V T : Type} [DecidableEq V] [DecidableEq T] [TerminalEq T] [LawfulTerminalEq T] {g g' : Grammar V T}
  {tbl tbl' : Table V T}

/-- The parser, run for `fuel` iterations, does what the machine does, which accepts or does not. -/
def Agrees (g : Grammar V T) (tbl : Table V T) (accepts : Prop) : Prop :=
  ∀ fuel input,
    (∀ n, parseTokens tbl fuel input = .ok (some n) ↔ ∃ k < fuel, MachineRun g accepts input k (.tree n)) ∧
    ((parseTokens tbl fuel input = .ok none ∨ parseTokens tbl fuel input = .panic) ↔
      ∃ k < fuel, MachineRun g accepts input k .error ∨ MachineRun g accepts input k .underflow) ∧
    ((∃ k < fuel, MachineRun g accepts input k .underflow) → parseTokens tbl fuel input = .panic) ∧
    (parseTokens tbl fuel input = .diverge ↔ ∃ x, ShiftReduces g fuel (.start input) x)

theorem SlrOk.agrees {c : Cfsm V T} {entry : Prop} (ok : SlrOk g c entry tbl) : Agrees g tbl entry := by
  intro fuel input
  have hrun := parse_run ok fuel input
  have hgives : ∀ {k s}, MachineRun g entry input k s → k < fuel → Gives s (parseTokens tbl fuel input) :=
    fun h hk => MachineRun.gives ok h hk
  have hno : ∀ {k s x}, MachineRun g entry input k s → k < fuel → ShiftReduces g fuel (.start input) x → False := by
    intro k s x h hk h'
    have := MachineRun.not_steps ok h h'
    omega
  revert hrun hgives
  generalize parseTokens tbl fuel input = res
  intro hrun hgives
  refine ⟨fun n => ⟨?_, ?_⟩, ⟨?_, ?_⟩, ?_, ⟨?_, ?_⟩⟩
  · rintro rfl
    rcases hrun with ⟨h, _⟩ | ⟨k, hk, s, h, hg⟩
    · cases h
    · cases hg
      exact ⟨k, hk, h⟩
  · rintro ⟨k, hk, h⟩
    cases hgives h hk
    rfl
  · intro hres
    rcases hrun with ⟨h, _⟩ | ⟨k, hk, s, h, hg⟩
    · subst h
      rcases hres with h | h <;> cases h
    · cases hg with
      | tree => rcases hres with h | h <;> cases h
      | error => exact ⟨k, hk, .inl h⟩
      | panic => exact ⟨k, hk, .inl h⟩
      | underflow => exact ⟨k, hk, .inr h⟩
  · rintro ⟨k, hk, h | h⟩
    · cases hgives h hk with
      | error => exact .inl rfl
      | panic => exact .inr rfl
    · cases hgives h hk
      exact .inr rfl
  · rintro ⟨k, hk, h⟩
    cases hgives h hk
    rfl
  · rintro rfl
    rcases hrun with ⟨_, h⟩ | ⟨k, hk, s, h, hg⟩
    · exact h
    · cases hg
  · rintro ⟨x, hx⟩
    rcases hrun with ⟨h, _⟩ | ⟨k, hk, s, h, hg⟩
    · exact h
    · exact (hno h hk hx).elim

/-- The part of C62 that holds for all grammars, with epsilon or without: the parser does what the machine does, except
that it may panic instead of returning an error, that it panics where the stack is too short for a rule, and that it
accepts nothing unless the start variable has a FOLLOW set.  That is so if the start variable is surely followed, and
only if something can stand behind it. -/
theorem c62_machine_partial (hg : Built g) (hp : IsParser g tbl) :
    ∃ accepts : Prop, (SurelyFollowed g g.start → accepts) ∧
      (accepts → Followable g g.start) ∧ Agrees g tbl accepts := by
  obtain ⟨c, follow, fo, ok⟩ := hp.ok hg
  refine ⟨Entry g follow, ?_, fun h => (fo.entered _ h).followable, SlrOk.agrees ok⟩
  exact fo.surely

/-- C62 for the grammars of C41, in full. -/
theorem c62_exact_partial (hg : Built g) (hp : IsParser g tbl) (he : EpsFree g)
    (hfirst : ∀ v β, (v, β) ∈ g.rules → ∃ t, InFirst g [.var v] (.term t))
    (hfollow : ∀ v β, (v, β) ∈ g.rules → ∃ t, InFollow g v (.term t))
    (hvar : ∃ β v, (g.start, β) ∈ g.rules ∧ .var v ∈ β) (fuel : Nat) (input : List T) :
    (∀ n, parseTokens tbl fuel input = .ok (some n) ↔ ∃ k < fuel, MachineRun g True input k (.tree n)) ∧
    (parseTokens tbl fuel input = .ok none ↔ ∃ k < fuel, MachineRun g True input k .error) ∧
    (parseTokens tbl fuel input = .diverge ↔ ∃ x, ShiftReduces g fuel (.start input) x) := by
  obtain ⟨accepts, h1, _, h2⟩ := c62_machine_partial hg hp
  obtain ⟨β, hβ⟩ := hg.wellFormed.start
  have ha : accepts = True := eq_true (h1 (.inl (hfollow _ _ hβ)))
  subst ha
  have hno := c41_partial hg hp he hfirst hfollow hvar fuel input
  obtain ⟨h3, h4, h5, h6⟩ := h2 fuel input
  refine ⟨h3, ⟨fun h => ?_, fun ⟨k, hk, h⟩ => ?_⟩, h6⟩
  · obtain ⟨k, hk, h | h⟩ := h4.1 (.inl h)
    · exact ⟨k, hk, h⟩
    · exact absurd (h5 ⟨k, hk, h⟩) hno
  · rcases h4.2 ⟨k, hk, .inl h⟩ with h | h
    · exact h
    · exact absurd h hno

/-- The machine of a grammar that has a parser leaves no choice: it does not stop in two ways, and not at all where it
can go on. -/
theorem c62_deterministic (hg : Built g) (hp : IsParser g tbl) :
    ∃ accepts : Prop, Agrees g tbl accepts ∧
      (∀ x y y', ShiftReduce g x y → ShiftReduce g x y' → y = y') ∧
      (∀ x y s, Halts g accepts x s → ¬ ShiftReduce g x y) ∧
      (∀ x s s', Halts g accepts x s → Halts g accepts x s' → s = s') := by
  obtain ⟨c, follow, fo, ok⟩ := hp.ok hg
  exact ⟨Entry g follow, SlrOk.agrees ok, fun x y y' h h' => ShiftReduce.det ok h h',
    fun x y s h h' => h.stuck ok.uniq h', fun x s s' h h' => h.unique ok.uniq h'⟩

/-- The parser of `goodGrammar` is its machine. -/
example (input : List String) (fuel : Nat) : parseTokens (tableOf goodGrammar) fuel input = .ok none ↔
    ∃ k < fuel, MachineRun goodGrammar True input k .error :=
  (c62_exact_partial goodGrammar_built goodGrammar_parser goodGrammar_epsFree goodGrammar_first goodGrammar_follow
    goodGrammar_var fuel input).2.1

/-- `S → A t`, `A → ε` and `U → S u`. -/
def underGrammar : Grammar String String :=
  ⟨"S", [("S", [.var "A", .term "t"]), ("A", [.eps]), ("U", [.var "S", .term "u"])]⟩

theorem underGrammar_built : Built underGrammar :=
  ⟨[.setStart "S", .addRules "S" [[.var "A", .term "t"]], .addRules "A" [[.eps]],
    .addRules "U" [[.var "S", .term "u"]]], by decide⟩

theorem underGrammar_parser : IsParser underGrammar (tableOf underGrammar) := ⟨100, .insertion, by decide +kernel⟩

/-- On `t` its machine tries to reduce `A → ε` while nothing is on the stack. -/
theorem underGrammar_run (accepts : Prop) (w : List String) :
    MachineRun underGrammar accepts ("t" :: w) 0 .underflow := by
  have hs : Viable underGrammar [] ("S", ⟨[.var "A", .term "t"], 0⟩) :=
    .start (by simp [underGrammar]) ⟨rfl, _, rfl, by simp⟩
  have hv : Viable underGrammar [] ("A", ⟨[.eps], 1⟩) :=
    .expand hs ⟨[], [.term "t"], rfl, rfl⟩ (β := [.eps]) (by simp [underGrammar]) ⟨rfl, [], rfl, by simp⟩
  exact ⟨_, .refl, .reduceUnder hv rfl (t := "t") (inFollow_iff.2 (.here (h := "S") (pre := []) (rest := [.term "t"])
    (by simp [underGrammar]) .term)) rfl (by simp)⟩

/-- So its parser panics, for every iteration order. -/
example (tbl : Table String String) (hp : IsParser underGrammar tbl) (w : List String) (fuel : Nat) (hf : 0 < fuel) :
    parseTokens tbl fuel ("t" :: w) = .panic := by
  obtain ⟨accepts, _, _, h⟩ := c62_machine_partial underGrammar_built hp
  exact (h fuel _).2.2.1 ⟨0, hf, underGrammar_run accepts w⟩

/-! ## C39 -/

/-- C39 again: nothing is accepted already if nothing can stand behind the start variable. -/
theorem c39_unfollowed (hg : Built g) (hp : IsParser g tbl) (hs : ¬ Followable g g.start) (fuel : Nat)
    (input : List T) (n : Node V T) : parseTokens tbl fuel input ≠ .ok (some n) := by
  intro h
  obtain ⟨accepts, _, h1, h2⟩ := c62_machine_partial hg hp
  obtain ⟨k, _, x, _, hx⟩ := ((h2 fuel input).1 n).1 h
  cases hx with
  | accept _ _ ha _ => exact hs (h1 ha)

/-- `S → a S | b` accepts nothing. -/
example : Built rightRec ∧ IsParser rightRec (tableOf rightRec) ∧ ¬ Followable rightRec rightRec.start := by
  have hno : ∀ {v}, ¬ Followed rightRec v := by
    rintro v ⟨h, pre, x, post, hr⟩
    simp only [rightRec, List.mem_cons, Prod.mk.injEq, List.not_mem_nil, or_false] at hr
    rcases hr with ⟨rfl, hr⟩ | ⟨rfl, hr⟩
    · have hl := congrArg List.length hr
      simp only [List.length_append, List.length_cons, List.length_nil] at hl
      obtain rfl : pre = [] := List.length_eq_zero_iff.1 (by omega)
      cases hr
    · have hl := congrArg List.length hr
      simp only [List.length_append, List.length_cons, List.length_nil] at hl
      omega
  refine ⟨rightRec_built, rightRec_parser, fun h => ?_⟩
  generalize rightRec.start = v at h
  induction h with
  | behind h => exact hno h
  | last _ _ ih => exact ih

/-! ## C42 -/

/-- Two results are the same, or one is an error where the other is a panic. -/
def SameButPanic (r r' : Outcome (Option (Node V T))) : Prop :=
  r = r' ∨ ((r = .ok none ∨ r = .panic) ∧ (r' = .ok none ∨ r' = .panic))

theorem Agrees.same {accepts : Prop} (h : Agrees g tbl accepts) (h' : Agrees g tbl' accepts) (fuel : Nat)
    (input : List T) : SameButPanic (parseTokens tbl fuel input) (parseTokens tbl' fuel input) := by
  obtain ⟨h1, h2, _, h4⟩ := h fuel input
  obtain ⟨k1, k2, _, k4⟩ := h' fuel input
  cases hr : parseTokens tbl fuel input with
  | ok r =>
    cases r with
    | some n => exact .inl ((k1 n).2 ((h1 n).1 hr)).symm
    | none => exact .inr ⟨.inl rfl, k2.2 (h2.1 (.inl hr))⟩
  | panic => exact .inr ⟨.inr rfl, k2.2 (h2.1 (.inr hr))⟩
  | diverge => exact .inl (k4.2 (h4.1 hr)).symm

/-- C42: if the start variable is surely followed, or nothing can stand behind it, then all parsers of a grammar do
the same on every input, except that some may return an error where others panic. -/
theorem c42_same_partial (hg : Built g) (hp : IsParser g tbl) (hp' : IsParser g tbl')
    (hd : SurelyFollowed g g.start ∨ ¬ Followable g g.start) (fuel : Nat)
    (input : List T) : SameButPanic (parseTokens tbl fuel input) (parseTokens tbl' fuel input) := by
  obtain ⟨a, h1, h2, h3⟩ := c62_machine_partial hg hp
  obtain ⟨a', h1', h2', h3'⟩ := c62_machine_partial hg hp'
  have ha : a = a' := by
    apply propext
    rcases hd with h | h
    · exact ⟨fun _ => h1' h, fun _ => h1 h⟩
    · exact ⟨fun k => absurd (h2 k) h, fun k => absurd (h2' k) h⟩
  subst ha
  exact h3.same h3' fuel input

/-- C42 with this condition, without the exception. -/
def C42SameErrors : Prop :=
  ∀ (V T : Type) [DecidableEq V] [DecidableEq T] [TerminalEq T] [LawfulTerminalEq T] (g : Grammar V T)
    (tbl tbl' : Table V T), Built g → IsParser g tbl → IsParser g tbl' →
    (SurelyFollowed g g.start ∨ ¬ Followable g g.start) →
    ∀ fuel input, parseTokens tbl fuel input = parseTokens tbl' fuel input

/-- `S → a d | c`. -/
def deadEnd : Grammar String String :=
  ⟨"S", [("S", [.term "a", .term "d"]), ("S", [.term "c"])]⟩

theorem deadEnd_built : Built deadEnd := ⟨[.setStart "S", .addRules "S" [[.term "a", .term "d"], [.term "c"]]], by decide⟩

theorem deadEnd_parser : IsParser deadEnd (tableOf deadEnd) := ⟨100, .insertion, by decide +kernel⟩

theorem deadEnd_parser' : IsParser deadEnd (tableOf deadEnd .reversed) := ⟨100, .reversed, by decide +kernel⟩

theorem deadEnd_unfollowed : ¬ Followable deadEnd deadEnd.start := by
  have hno : ∀ {h β v}, (h, β) ∈ deadEnd.rules → .var v ∉ β := by
    intro h β v hr hv
    simp only [deadEnd, List.mem_cons, Prod.mk.injEq, List.not_mem_nil, or_false] at hr
    rcases hr with ⟨_, rfl⟩ | ⟨_, rfl⟩ <;> simp at hv
  intro h
  cases h with
  | behind h =>
    obtain ⟨_, _, _, _, hr⟩ := h
    exact hno hr (v := deadEnd.start) (by simp)
  | last hr _ => exact hno hr (v := deadEnd.start) (by simp)

/-- The exception is necessary: whether the parser of `S → a d | c` returns an error or panics on `c` depends on the
iteration order, which decides whether a state without actions is numbered above all others. -/
theorem c42_errors_false : ¬ C42SameErrors := by
  intro h
  have := h _ _ deadEnd _ _ deadEnd_built deadEnd_parser deadEnd_parser' (.inr deadEnd_unfollowed) 10 ["c"]
  exact absurd this (by decide +kernel)

/-! ## C59 -/

/-- C59: under the conditions of `c59_construction_partial`, parsers of both grammars do the same on every input, except
that some may return an error where others panic. -/
theorem c59_same_partial (hg : Built g) (hg' : Built g') (h : SameReachable g g')
    (hf : ∀ v t, Reachable g v → (InFollow g v (.term t) ↔ InFollow g' v (.term t))) (hd : SameEnd g g')
    (hp : IsParser g tbl) (hp' : IsParser g' tbl') (fuel : Nat) (input : List T) :
    SameButPanic (parseTokens tbl fuel input) (parseTokens tbl' fuel input) := by
  obtain ⟨c, follow, fo, ok⟩ := hp.ok hg
  obtain ⟨c', follow', fo', ok'⟩ := hp'.ok hg'
  rw [← entry_same fo fo' hd] at ok'
  exact (SlrOk.agrees ok).same (SlrOk.agrees (ok'.same (SameReachable.symm h) (SameFollow.symm h hf))) fuel input

/-- `sums` and `sumsAndU` meet the hypotheses (see `c59_separate_partial`). -/
example (hf : ∀ v t, Reachable sums v → (InFollow sums v (.term t) ↔ InFollow sumsAndU v (.term t)))
    (hd : SameEnd sums sumsAndU) (fuel : Nat) (input : List String) :
    SameButPanic (parseTokens (tableOf sums) fuel input) (parseTokens (tableOf sumsAndU) fuel input) :=
  c59_same_partial
    ⟨[.setStart "S", .addRules "S" [[.var "S", .term "+", .term "n"], [.term "n"]]], by decide⟩
    ⟨[.setStart "S", .addRules "U" [[.term "(", .var "U", .term ")"]], .addRules "S" [[.term "n"]],
      .addRules "U" [[.term "x"]], .addRules "S" [[.var "S", .term "+", .term "n"]]], by decide⟩
    sums_same hf hd ⟨100, .insertion, by decide +kernel⟩ ⟨100, .insertion, by decide +kernel⟩ fuel input

end Pango.Props
