import Verif.Proofs.Breaks
import Verif.Proofs.NoPanic
import Verif.Props.Machine

/-!
# C41, C59 and C62: where exactly the parser panics

The parser panics in three places: `handle_token` finds no row of the action table for the state, or none of the goto
table, or it pops more than there is on the stack.  Here these are told from the grammar and the numbers of the states.
-/

namespace Pango.Props

open Pango Pango.Parse Pango.Spec

variable {V T : Type} [DecidableEq V] [DecidableEq T] [TerminalEq T] [LawfulTerminalEq T] {g : Grammar V T}
  {tbl : Table V T}

/-- C41 and C62 without the exception of `c62_machine_partial`: with the states numbered as in the automaton, the parser
panics exactly if the machine gets to a configuration that breaks, and returns an error exactly if the machine stops
with an error in a configuration that does not. -/
theorem c41_exact_partial (hg : Built g) {ord : HashOrder} {enough : Nat} (h : slrNew g ord enough = .ok tbl) :
    ∃ c accepts, Cfsm.fromGrammar g (ord.sub 0) enough = .ok c ∧
      (SurelyFollowed g g.start → accepts) ∧ (accepts → Followable g g.start) ∧
      Agrees g tbl accepts ∧ ∀ fuel input,
        (parseTokens tbl fuel input = .panic ↔
          ∃ k < fuel, ∃ x, ShiftReduces g k (.start input) x ∧ Breaks g c accepts x) ∧
        (parseTokens tbl fuel input = .ok none ↔
          ∃ k < fuel, ∃ x, ShiftReduces g k (.start input) x ∧ Halts g accepts x .error ∧ ¬ Breaks g c accepts x) := by
  obtain ⟨c, follow, h1, fo, ok⟩ := slrNew_from hg.wellFormed h
  refine ⟨c, Entry g follow, h1, ?_, fun h => (fo.entered _ h).followable, SlrOk.agrees ok, parse_breaks ok⟩
  exact fo.surely

/-- What breaks for one numbering of the states or another: nothing at all is asked for behind the stack; or a rule is
reduced and nothing behind the rest of the stack has a variable behind the cursor; or the stack is too short. -/
theorem c41_panics_partial (hg : Built g) (hp : IsParser g tbl) {fuel : Nat} {input : List T}
    (h : parseTokens tbl fuel input = .panic) :
    ∃ accepts, Agrees g tbl accepts ∧ ∃ k < fuel, ∃ x : Config V T, ShiftReduces g k (.start input) x ∧
      (¬ Acts g accepts x.syms ∨
        (∃ γ ρ hd i, x.syms = γ ++ ρ ∧ Viable g (γ ++ ρ) (hd, i) ∧ Complete i ∧ ρ.length = i.body.length ∧
          ¬ ReadsVariable g γ) ∨
        Halts g accepts x .underflow) := by
  obtain ⟨enough, ord, hp⟩ := hp
  obtain ⟨c, accepts, _, _, _, ha, h1⟩ := c41_exact_partial hg hp
  obtain ⟨k, hk, x, h2, h3⟩ := (h1 fuel input).1.1 h
  refine ⟨accepts, ha, k, hk, x, h2, ?_⟩
  cases h3 with
  | noRow h3 =>
    obtain ⟨s, h4, h5⟩ := h3
    exact .inl fun h6 => Nat.lt_irrefl _ (h5 _ _ h6 h4)
  | noGotoRow h3 h4 _ _ h5 h6 =>
    obtain ⟨s, h7, h8⟩ := h6
    exact .inr (.inl ⟨_, _, _, _, rfl, h3, h4, h5, fun h9 => Nat.lt_irrefl _ (h8 _ _ h9 h7)⟩)
  | underflow h3 => exact .inr (.inr h3)

/-! ## Grammars whose variables have FIRST and FOLLOW sets -/

/-- What can be reached is without epsilon, and has terminals in its FIRST and FOLLOW sets. -/
structure Ordinary (g : Grammar V T) : Prop where
  epsFree : ∀ v β, Reachable g v → (v, β) ∈ g.rules → Sym.eps ∉ β
  first : ∀ v, Reachable g v → ∃ t, InFirst g [.var v] (.term t)
  follow : ∀ v, Reachable g v → ∃ t, InFollow g v (.term t)

section

omit [DecidableEq V] [DecidableEq T] [TerminalEq T] [LawfulTerminalEq T]

theorem Ordinary.not_nullable (wf : WellFormed g) (ho : Ordinary g) {α : List (Sym V T)} (hα : α ≠ [])
    (hn : Sym.eps ∉ α) (hr : ∀ v, Sym.var v ∈ α → Reachable g v) : ¬ Nullable g α := by
  intro h
  induction h with
  | nil => exact hα rfl
  | eps _ _ => exact hn (by simp)
  | @var v β α hβ _ _ ih1 _ =>
    have hv := hr v (by simp)
    exact ih1 (wf.nonempty _ _ hβ) (ho.epsFree _ _ hv hβ) fun w hw => .step hv hβ hw

theorem Ordinary.starts (wf : WellFormed g) (ho : Ordinary g) {t : T} {α : List (Sym V T)} (hs : Starts g t α) :
    ∀ {γ pre : List (Sym V T)} {h : V} {i : Item V T}, Viable g γ (h, i) → i.body = pre ++ α → i.cursor = pre.length →
      ∃ h' i', Viable g γ (h', i') ∧ Reads i' (.term t) := by
  induction hs with
  | term =>
    intro γ pre h i hv h1 h2
    exact ⟨h, i, hv, pre, _, h1, h2⟩
  | eps _ _ =>
    intro γ pre h i hv h1 h2
    exact absurd (by rw [h1]; simp) (ho.epsFree _ _ hv.reachable (Viable_ok hv).rule)
  | @inVar v β α hr _ ih =>
    intro γ pre h i hv h1 h2
    have hv' : Reachable g v := .step hv.reachable (Viable_ok hv).rule (by simp [h1])
    exact ih (.expand hv ⟨pre, _, h1, h2⟩ hr (fresh_plain (ho.epsFree _ _ hv' hr))) (pre := []) rfl rfl
  | @skip v β α hr hn _ _ =>
    intro γ pre h i hv h1 h2
    have hv' : Reachable g v := .step hv.reachable (Viable_ok hv).rule (by simp [h1])
    exact absurd hn (ho.not_nullable wf (wf.nonempty _ _ hr) (ho.epsFree _ _ hv' hr) fun w hw => .step hv' hr hw)

/-- Behind every stack something is asked for. -/
theorem Ordinary.acts (wf : WellFormed g) (ho : Ordinary g) {accepts : Prop} {γ : List (Sym V T)} {p : V × Item V T}
    (hp : Viable g γ p) : Acts g accepts γ := by
  obtain ⟨hd, i⟩ := p
  have hrule := (Viable_ok hp).rule
  simp only at hrule
  cases hcur : i.cursorSymbol with
  | none =>
    obtain ⟨t, ht⟩ := ho.follow _ hp.reachable
    exact ⟨_, some t, .reduce hp ((complete_iff (Viable_ok hp)).2 hcur) ht⟩
  | some x =>
    obtain ⟨pre, post, hb, hcu⟩ := reads_iff.2 hcur
    cases x with
    | term t => exact ⟨_, some t, .shift hp (reads_iff.2 hcur)⟩
    | eps => exact absurd hcur (Viable_ok hp).noEps
    | var v =>
      obtain ⟨t, ht⟩ := ho.first v (.step hp.reachable hrule (by rw [hb]; simp))
      have : Starts g t (.var v :: post) :=
        starts_append.2 (.inl (derives_starts.1 ht) : _ ∨ (Nullable g [.var v] ∧ Starts g t post))
      obtain ⟨h', i', h3, h4⟩ := ho.starts wf this hp hb hcu
      exact ⟨_, _, .shift h3 h4⟩

/-- Tokens of a body are shifted. -/
theorem shift_terminals [TerminalEq T] [LawfulTerminalEq T] {ts : List T} :
    ∀ {γ pre post : List (Sym V T)} {ns : List (Node V T)} {h : V} {i : Item V T} {w : List T}, Viable g γ (h, i) →
      Sym.eps ∉ i.body → i.body = pre ++ (ts.map .term ++ post) → i.cursor = pre.length →
      ∃ ns', ShiftReduces g ts.length ⟨γ, ns, ts ++ w⟩ ⟨γ ++ ts.map .term, ns', w⟩ := by
  induction ts with
  | nil => intro γ pre post ns h i w _ _ _ _; exact ⟨ns, by simpa using .refl⟩
  | cons t ts ih =>
    intro γ pre post ns h i w hv he h1 h2
    have hv' := viable_run hv he (α := [.term t]) (post := ts.map .term ++ post) (by simpa using h1) h2
    obtain ⟨ns', h3⟩ := ih (ns := .mk (.term t) [] :: ns) (w := w) (post := post) hv' he (pre := pre ++ [.term t])
      (by simpa using h1) rfl
    refine ⟨ns', .step (.shift hv ⟨pre, ts.map .term ++ post, by simpa using h1, h2⟩ (LawfulTerminalEq.refl t)) ?_⟩
    simpa using h3

end

/-- C41 for ordinary grammars, exactly: the parser never panics if and only if some rule of the start variable contains
a variable.  This does not depend on the iteration order, nor on rules that cannot be reached. -/
theorem c41_iff_partial (hg : Built g) (hp : IsParser g tbl) (ho : Ordinary g) :
    (∀ fuel input, parseTokens tbl fuel input ≠ .panic) ↔ ∃ β v, (g.start, β) ∈ g.rules ∧ .var v ∈ β := by
  have wf := hg.wellFormed
  constructor
  · intro hno
    refine Classical.byContradiction fun hvar => ?_
    have hterm : ∀ β, (g.start, β) ∈ g.rules → ∃ ts : List T, β = ts.map .term := by
      intro β hβ
      have he := ho.epsFree _ _ .start hβ
      have hv : ∀ v, Sym.var v ∉ β := fun v hv => hvar ⟨β, v, hβ, hv⟩
      clear hβ
      induction β with
      | nil => exact ⟨[], rfl⟩
      | cons x β ih =>
        obtain ⟨ts, rfl⟩ := ih (fun h => he (by simp [h])) fun v h => hv v (by simp [h])
        cases x with
        | term t => exact ⟨t :: ts, rfl⟩
        | var v => exact absurd (by simp) (hv v)
        | eps => exact absurd (by simp) he
    have hreach : ∀ {v}, Reachable g v → v = g.start := by
      intro v hv
      induction hv with
      | start => rfl
      | step _ hr hm ih =>
        subst ih
        exact absurd ⟨_, _, hr, hm⟩ hvar
    have hread : ∀ γ, ¬ ReadsVariable g γ := by
      rintro γ ⟨⟨h, i⟩, v, hv, pre, post, h1, _⟩
      refine hvar ⟨i.body, v, ?_, by rw [h1]; simp⟩
      have := (Viable_ok hv).rule
      rwa [hreach hv.reachable] at this
    obtain ⟨β, hβ⟩ := wf.start
    obtain ⟨ts, rfl⟩ := hterm β hβ
    obtain ⟨t, ht⟩ := ho.follow _ .start
    obtain ⟨enough, ord, hp⟩ := hp
    obtain ⟨c, accepts, hc, _, _, _, h1⟩ := c41_exact_partial hg hp
    have he := ho.epsFree _ _ .start hβ
    have hv : Viable g [] (g.start, ⟨ts.map .term, 0⟩) := .start hβ (fresh_plain he)
    have hv' := viable_run hv he (α := ts.map .term) (pre := []) (post := []) (by simp) rfl
    obtain ⟨ns, hrun⟩ := shift_terminals (ts := ts) (ns := []) (w := [t]) hv he (pre := []) (post := []) (by simp) rfl
    obtain ⟨s0, _, hs0⟩ := (fromGrammar_ok wf hc).reached_start
    refine hno (ts.length + 1) (ts ++ [t]) ((h1 _ _).1.2 ⟨ts.length, Nat.lt_succ_self _, _, hrun, ?_⟩)
    exact .noGotoRow hv' (by simp [Complete]) ht (LawfulTerminalEq.refl t) (by simp)
      ⟨s0, hs0, fun γ' _ h => absurd h (hread γ')⟩
  · intro hvar fuel input h
    obtain ⟨enough, ord, hp⟩ := hp
    obtain ⟨c, accepts, hc, _, _, _, h1⟩ := c41_exact_partial hg hp
    have ok := fromGrammar_ok wf hc
    obtain ⟨k, _, x, _, hx⟩ := (h1 fuel input).1.1 h
    have hbody : ∀ {γ h i}, Viable g γ (h, i) → Complete i →
        ∃ γ', γ = γ' ++ i.body ∧ Source g γ' h := fun hv hc =>
      viable_complete hv hc (ho.epsFree _ _ hv.reachable (Viable_ok hv).rule)
    cases hx with
    | noRow h2 =>
      obtain ⟨s, h3, h4⟩ := h2
      obtain ⟨p, h5⟩ := reached_nonempty wf ok h3
      exact Nat.lt_irrefl _ (h4 _ _ (ho.acts wf h5) h3)
    | noGotoRow h2 h3 _ _ h4 h5 =>
      obtain ⟨s, h6, h7⟩ := h5
      obtain ⟨γ', h8, h9⟩ := hbody h2 h3
      obtain ⟨rfl, _⟩ := List.append_inj' h8 h4
      rcases h9 with ⟨rfl, _⟩ | ⟨h', i', h9, h10⟩
      · obtain ⟨β, v, hβ, hmem⟩ := hvar
        obtain ⟨pre, post, rfl⟩ := List.append_of_mem hmem
        have he := ho.epsFree _ _ .start hβ
        have hv : Viable g [] (g.start, ⟨pre ++ .var v :: post, 0⟩) := .start hβ (fresh_plain he)
        have hv' := viable_run hv he (α := pre) (pre := []) (post := .var v :: post) (by simp) rfl
        obtain ⟨s1, hs1⟩ := ok.exists_reached hv'
        obtain ⟨s0, h11, h12⟩ := ok.reached_start
        cases ok.reached_unique h6 h12
        have := h7 _ _ ⟨_, v, hv', pre, post, rfl, by simp⟩ hs1
        omega
      · exact Nat.lt_irrefl _ (h7 _ _ ⟨_, _, h9, h10⟩ h6)
    | underflow h2 =>
      cases h2 with
      | reduceUnder h3 h4 _ _ h5 =>
        obtain ⟨γ', rfl, _⟩ := hbody h3 h4
        simp only [List.length_append] at h5
        omega
      | acceptUnder h3 h4 _ h5 =>
        obtain ⟨γ', rfl, _⟩ := hbody h3 h4
        simp only [List.length_append] at h5
        omega

/-! ## Examples -/

/-- `S → S + n | n` and `U → x`.  Nothing follows `U`, which cannot be reached. -/
def sumsAndX : Grammar String String :=
  ⟨"S", [("U", [.term "x"]), ("S", [.term "n"]), ("S", [.var "S", .term "+", .term "n"])]⟩

theorem sumsAndX_built : Built sumsAndX :=
  ⟨[.setStart "S", .addRules "U" [[.term "x"]], .addRules "S" [[.term "n"], [.var "S", .term "+", .term "n"]]],
    by decide⟩

theorem sumsAndX_parser : IsParser sumsAndX (tableOf sumsAndX) := ⟨100, .insertion, by decide +kernel⟩

theorem sumsAndX_reachable {v : String} (h : Reachable sumsAndX v) : v = "S" := by
  induction h with
  | start => rfl
  | step _ hr hv ih =>
    subst ih
    simp only [sumsAndX, List.mem_cons, Prod.mk.injEq, List.not_mem_nil, or_false, true_and] at hr
    rcases hr with ⟨h, _⟩ | rfl | rfl
    · exact absurd h (by decide)
    · simp at hv
    · simpa using hv

theorem sumsAndX_ordinary : Ordinary sumsAndX where
  epsFree v β hv hr := by
    simp only [sumsAndX, List.mem_cons, Prod.mk.injEq, List.not_mem_nil, or_false] at hr
    rcases hr with ⟨_, rfl⟩ | ⟨_, rfl⟩ | ⟨_, rfl⟩ <;> simp
  first v hv := by
    rw [sumsAndX_reachable hv]
    exact ⟨"n", derives_starts.2 (.inVar (β := [.term "n"]) (by simp [sumsAndX]) .term)⟩
  follow v hv := by
    rw [sumsAndX_reachable hv]
    exact ⟨"+", inFollow_iff.2 (.here (h := "S") (pre := []) (rest := [.term "+", .term "n"]) (by simp [sumsAndX]) .term)⟩

/-- Its parser panics on nothing, for every iteration order. -/
example (tbl : Table String String) (hp : IsParser sumsAndX tbl) (fuel : Nat) (input : List String) :
    parseTokens tbl fuel input ≠ .panic :=
  (c41_iff_partial sumsAndX_built hp sumsAndX_ordinary).2
    ⟨[.var "S", .term "+", .term "n"], "S", by simp [sumsAndX], by simp⟩ fuel input

/-- `S → x` and `U → S t` are ordinary too, but no rule of `S` contains a variable. -/
theorem xAndU_ordinary : Ordinary xAndU := by
  have hreach : ∀ {v}, Reachable xAndU v → v = "S" := by
    intro v hv
    induction hv with
    | start => rfl
    | step _ hr hv ih =>
      subst ih
      simp only [xAndU, List.mem_cons, Prod.mk.injEq, List.not_mem_nil, or_false, true_and] at hr
      rcases hr with rfl | ⟨h, _⟩
      · simp at hv
      · exact absurd h (by decide)
  refine ⟨fun v β _ hr => ?_, fun v hv => ?_, fun v hv => ?_⟩
  · simp only [xAndU, List.mem_cons, Prod.mk.injEq, List.not_mem_nil, or_false] at hr
    rcases hr with ⟨_, rfl⟩ | ⟨_, rfl⟩ <;> simp
  · rw [hreach hv]
    exact ⟨"x", derives_starts.2 (.inVar (β := [.term "x"]) (by simp [xAndU]) .term)⟩
  · rw [hreach hv]
    exact ⟨"t", inFollow_iff.2 (.here (h := "U") (pre := []) (rest := [.term "t"]) (by simp [xAndU]) .term)⟩

/-- So every parser of it panics on some input. -/
example (tbl : Table String String) (hp : IsParser xAndU tbl) : ∃ fuel input, parseTokens tbl fuel input = .panic := by
  refine Classical.byContradiction fun h => ?_
  obtain ⟨β, v, h1, h2⟩ := (c41_iff_partial
    ⟨[.setStart "S", .addRules "S" [[.term "x"]], .addRules "U" [[.var "S", .term "t"]]], by decide⟩ hp
    xAndU_ordinary).1 fun fuel input hh => h ⟨fuel, input, hh⟩
  simp only [xAndU, List.mem_cons, Prod.mk.injEq, List.not_mem_nil, or_false, true_and] at h1
  rcases h1 with rfl | ⟨h1, _⟩
  · simp at h2
  · exact absurd h1 (by decide)

/-- On `c` the parser of `S → a d | c` panics for one iteration order: the state behind `c` comes after all others that
do something. -/
example : ∃ c accepts, Cfsm.fromGrammar deadEnd (HashOrder.insertion.sub 0) 100 = .ok c ∧ ∃ k < 10, ∃ x,
    ShiftReduces deadEnd k (.start ["c"]) x ∧ Breaks deadEnd c accepts x := by
  obtain ⟨c, accepts, h1, _, _, _, h2⟩ := c41_exact_partial (tbl := tableOf deadEnd) (ord := .insertion) (enough := 100)
    deadEnd_built (by decide +kernel)
  exact ⟨c, accepts, h1, (h2 10 ["c"]).1.1 (by decide +kernel)⟩

/-- And for another it returns an error. -/
example : ∃ c accepts, Cfsm.fromGrammar deadEnd (HashOrder.reversed.sub 0) 100 = .ok c ∧ ∃ k < 10, ∃ x,
    ShiftReduces deadEnd k (.start ["c"]) x ∧ Halts deadEnd accepts x .error ∧ ¬ Breaks deadEnd c accepts x := by
  obtain ⟨c, accepts, h1, _, _, _, h2⟩ := c41_exact_partial (tbl := tableOf deadEnd .reversed) (ord := .reversed)
    (enough := 100) deadEnd_built (by decide +kernel)
  exact ⟨c, accepts, h1, (h2 10 ["c"]).2.1 (by decide +kernel)⟩

/-! ## C59 -/

/-- C59 with the conditions of `c59_same_partial`, for one iteration order and without the exception. -/
def C59SameErrors : Prop :=
  ∀ (V T : Type) [DecidableEq V] [DecidableEq T] [TerminalEq T] [LawfulTerminalEq T] (g g' : Grammar V T)
    (tbl tbl' : Table V T) (ord : HashOrder) (enough : Nat), Built g → Built g' → SameReachable g g' →
    (∀ v t, Reachable g v → (InFollow g v (.term t) ↔ InFollow g' v (.term t))) → SameEnd g g' →
    slrNew g ord enough = .ok tbl → slrNew g' ord enough = .ok tbl' →
    ∀ fuel input, parseTokens tbl fuel input = parseTokens tbl' fuel input

/-- `S → c | a d`. -/
def deadEnd' : Grammar String String := ⟨"S", [("S", [.term "c"]), ("S", [.term "a", .term "d"])]⟩

/-- The exception in `c59_same_partial` is necessary, even for one iteration order: of the parsers of `S → a d | c` and
`S → c | a d`, one panics on an input where the other returns an error. -/
theorem c59_errors_false : ¬ C59SameErrors := by
  intro h
  have hno : ∀ {g : Grammar String String}, (∀ h β v, (h, β) ∈ g.rules → Sym.var v ∉ β) → ∀ v t,
      ¬ InFollow g v (.term t) := by
    intro g hg v t hf
    cases inFollow_iff.1 hf with
    | here hr _ => exact hg _ _ v hr (by simp)
    | up hr _ _ => exact hg _ _ v hr (by simp)
  have h1 : ∀ h β v, (h, β) ∈ deadEnd.rules → Sym.var v ∉ β := by
    intro h β v hr
    simp only [deadEnd, List.mem_cons, Prod.mk.injEq, List.not_mem_nil, or_false] at hr
    rcases hr with ⟨_, rfl⟩ | ⟨_, rfl⟩ <;> simp
  have h2 : ∀ h β v, (h, β) ∈ deadEnd'.rules → Sym.var v ∉ β := by
    intro h β v hr
    simp only [deadEnd', List.mem_cons, Prod.mk.injEq, List.not_mem_nil, or_false] at hr
    rcases hr with ⟨_, rfl⟩ | ⟨_, rfl⟩ <;> simp
  have h3 := h _ _ deadEnd deadEnd' (tableOf deadEnd) (tableOf deadEnd') .insertion 100 deadEnd_built
    ⟨[.setStart "S", .addRules "S" [[.term "c"], [.term "a", .term "d"]]], by decide⟩
    ⟨rfl, fun v β _ => by simp only [deadEnd, deadEnd', List.mem_cons, or_false, List.not_mem_nil]; exact or_comm⟩
    (fun v t _ => ⟨fun hf => absurd hf (hno h1 v t), fun hf => absurd hf (hno h2 v t)⟩)
    (.inr ⟨deadEnd_unfollowed, fun hf => have ⟨_, _, hr, hv⟩ := hf.occurs; h2 _ _ _ hr hv⟩)
    (by decide +kernel) (by decide +kernel) 10 ["c"]
  exact absurd h3 (by decide +kernel)

end Pango.Props
