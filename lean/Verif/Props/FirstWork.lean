import Verif.Proofs.FirstCount
import Verif.Proofs.FirstDoubling
import Verif.Props.FirstFollow
import Verif.Props.Memory

/-!
# C81: how long it takes to compute the sets of a grammar
-/

namespace Pango.Props

open Pango Pango.Parse Pango.Spec Pango.Parse.Optionals

/-- Specification: the size of a grammar is the number of its rules and of the symbols in them. -/
def rulesSize {V T : Type} (g : Grammar V T) : Nat := (g.rules.map fun r => r.2.length + 1).sum

/-- C81 as stated: while the FOLLOW sets are computed, the number of bodies looked at is at most polynomial in the size
of the grammar. -/
def QuickSets : Prop :=
  ∃ a k : Nat, ∀ (V T : Type) [DecidableEq V] [DecidableEq T] (g : Grammar V T), Built g →
    ∀ (fuel : Nat) (ord : HashOrder) (r : List (V × List (Sym V T))), g.followSet ord fuel = .ok r →
      g.followCount ord fuel ≤ a * (rulesSize g + 1) ^ k

/-! ## The numbers are those of the whole computation -/

section

variable {V T : Type} [DecidableEq V] [DecidableEq T]

private theorem bodiesCount_more {g : Grammar V T} {ord : HashOrder} {n m : Nat} {bs : List (Body V T)}
    {r : List (Sym V T)} (h : firstBodies g ord n none bs = .ok r) (hm : n ≤ m) :
    firstBodiesCount g ord m none bs = firstBodiesCount g ord n none bs := by
  simp only [firstBodies] at h
  cases hl : firstLoop g ord n ⟨[], [], [(none, bs)], [], []⟩ with
  | ok s => exact firstCount_more hl hm
  | _ => rw [hl] at h; cases h

private theorem followBodyCount_more {g : Grammar V T} {ord : HashOrder} {n m : Nat} (hm : n ≤ m) {v : V}
    {β : Body V T} : ∀ {s s' : FollowState V T}, followBody g ord n v β s = .ok s' →
    followBodyCount g ord m β = followBodyCount g ord n β := by
  induction β with
  | nil => exact fun _ => rfl
  | cons x β ih =>
    intro s s' h
    cases x with
    | term t => exact ih h
    | eps => exact ih h
    | var w =>
      simp only [followBody] at h
      simp only [followBodyCount]
      split
      · rename_i he
        rw [if_pos he] at h
        exact ih h
      · rename_i he
        rw [if_neg he] at h
        cases hf : firstBodies g (ord.sub β.length) n none [β] with
        | ok r =>
          rw [hf, Outcome.bind_ok] at h
          rw [bodiesCount_more hf hm, ih h]
        | _ => rw [hf] at h; cases h

private theorem followRulesCount_more {g : Grammar V T} {ord : HashOrder} {n m : Nat} (hm : n ≤ m)
    {rules : List (V × Body V T)} : ∀ {s s' : FollowState V T}, followRules g ord n rules s = .ok s' →
    followRulesCount g ord m rules = followRulesCount g ord n rules := by
  induction rules with
  | nil => exact fun _ => rfl
  | cons e rules ih =>
    intro s s' h
    obtain ⟨v, β⟩ := e
    simp only [followRules] at h
    cases hf : followBody g (ord.sub rules.length) n v β s with
    | ok s1 =>
      rw [hf, Outcome.bind_ok] at h
      simp only [followRulesCount, followBodyCount_more hm hf, ih h]
    | _ => rw [hf] at h; cases h

/-- C81: if the computation ends within a number of iterations, the number of bodies looked at is final: it is the same
for every larger number of iterations. -/
theorem c81_final (g : Grammar V T) (ord : HashOrder) (fuel : Nat) (r : List (V × List (Sym V T)))
    (h : g.followSet ord fuel = .ok r) (more : Nat) (hm : fuel ≤ more) :
    g.followCount ord more = g.followCount ord fuel := by
  simp only [Grammar.followSet] at h
  cases hf : followRules g (ord.sub 1) fuel ((ord.sub 0).grouped Prod.fst g.rules) ⟨[], []⟩ with
  | ok s => exact followRulesCount_more hm hf
  | _ => rw [hf] at h; cases h

/-! ## An upper bound -/

/-- Specification: the number of variables in a string. -/
def variablesIn (β : List (Sym V T)) : Nat :=
  (β.filter fun x => match x with | .var _ => true | _ => false).length

/-- Specification: every part of a body from which the empty string can be derived has at most `k` variables. -/
def AtMostInARow (g : Grammar V T) (k : Nat) : Prop :=
  ∀ v α β γ, (v, α ++ β ++ γ) ∈ g.rules → InFirst g β .eps → variablesIn β ≤ k

omit [DecidableEq V] [DecidableEq T] in
private theorem weight_row {g : Grammar V T} {N : V → Bool} (hN : ∀ v, N v = true → Nullable g [.var v]) (L : Nat)
    {b : Body V T} : ∀ {k : Nat}, (∀ β γ, b = β ++ γ → Nullable g β → variablesIn β ≤ k) →
    weight N (fun _ => L) b ≤ (L + 1) ^ (k + 1) := by
  have one : ∀ k, 1 ≤ (L + 1) ^ k := fun k => Nat.pow_pos (Nat.succ_pos L)
  induction b with
  | nil => exact fun _ => one _
  | cons x b ih =>
    intro k h
    cases x with
    | term t => exact one _
    | eps => exact ih fun β γ e hn => h (.eps :: β) γ (by rw [e]; rfl) (.eps hn)
    | var v =>
      rw [weight]
      split
      · rename_i hv
        have h1 := h [.var v] b rfl (hN v hv)
        simp only [variablesIn, List.filter_cons, if_true, List.filter_nil, List.length_singleton] at h1
        obtain ⟨k, rfl⟩ : ∃ j, k = j + 1 := ⟨k - 1, by omega⟩
        have h2 := ih (k := k) fun β γ e hn => by
          have := h (.var v :: β) γ (by rw [e]; rfl)
            ((nullable_append (α := [.var v]) (β := β)).2 ⟨hN v hv, hn⟩)
          simp only [variablesIn, List.filter_cons, if_true, List.length_cons] at this ⊢
          omega
        rw [Nat.pow_succ, Nat.mul_comm]
        exact Nat.mul_le_mul_right _ h2
      · rw [Nat.mul_one, Nat.pow_succ]
        exact Nat.le_mul_of_pos_left _ (one k)

private theorem count_row {g : Grammar V T} (wf : Spec.WellFormed g) {k : Nat} (hk : AtMostInARow g k) (ord : HashOrder)
    (fuel : Nat) {v : V} {α β : Body V T} (hr : (v, α ++ β) ∈ g.rules) :
    firstBodiesCount g ord fuel none [β] ≤ (g.rules.length + 1) * ((firstUniverse g).length + 1) ^ (k + 1) := by
  classical
  have h1 := firstBodiesCount_le wf (N := fun v => decide (Nullable g [.var v])) (fun v h => decide_eq_true h) ord fuel
    (α := β) (fun w h => by
      obtain ⟨γ, h⟩ := wf.closed v _ w hr (List.mem_append_right _ h)
      exact List.mem_map.2 ⟨_, h, rfl⟩)
  refine Nat.le_trans h1 ?_
  have h2 : weight (fun v => decide (Nullable g [.var v])) (fun _ => (firstUniverse g).length) β ≤
      ((firstUniverse g).length + 1) ^ (k + 1) :=
    weight_row (fun v h => of_decide_eq_true h) _ fun δ γ e hn =>
      hk v α δ γ (by rw [List.append_assoc, ← e]; exact hr) (inFirst_iff.2 hn)
  have h3 : (g.rules.map fun e => weight (fun v => decide (Nullable g [.var v]))
      (fun _ => (firstUniverse g).length) e.2).sum ≤ g.rules.length * ((firstUniverse g).length + 1) ^ (k + 1) := by
    rw [← sum_map_const]
    refine sum_map_le fun e he => weight_row (fun v h => of_decide_eq_true h) _ fun δ γ h hn => ?_
    exact hk e.1 [] δ γ (by rw [List.nil_append, ← h]; exact he) (inFirst_iff.2 hn)
  rw [Nat.add_mul, Nat.one_mul]
  omega

private theorem bodyCount_row {g : Grammar V T} {ord : HashOrder} {fuel B : Nat} {full : Body V T}
    (h : ∀ α β ord, full = α ++ β → firstBodiesCount g ord fuel none [β] ≤ B) :
    ∀ {α β : Body V T}, full = α ++ β → followBodyCount g ord fuel β ≤ β.length * B := by
  intro α β
  induction β generalizing α with
  | nil => exact fun _ => Nat.le_of_eq (by simp [followBodyCount])
  | cons x β ih =>
    intro e
    have e' : full = (α ++ [x]) ++ β := by rw [e]; simp
    have h1 := ih e'
    have h2 := h (α ++ [x]) β (ord.sub β.length) e'
    rw [List.length_cons, Nat.succ_mul]
    cases x with
    | term t => exact Nat.le_trans h1 (Nat.le_add_right _ _)
    | eps => exact Nat.le_trans h1 (Nat.le_add_right _ _)
    | var w =>
      simp only [followBodyCount]
      split <;> omega

private theorem rulesCount_row {g : Grammar V T} {ord : HashOrder} {fuel B : Nat} {rules : List (V × Body V T)}
    (h : ∀ v α β ord, (v, α ++ β) ∈ rules → firstBodiesCount g ord fuel none [β] ≤ B) :
    followRulesCount g ord fuel rules ≤ (rules.map fun r => r.2.length).sum * B := by
  induction rules with
  | nil => exact Nat.le_of_eq (by simp [followRulesCount])
  | cons e rules ih =>
    obtain ⟨v, body⟩ := e
    have h1 := ih fun v α β ord hr => h v α β ord (List.mem_cons_of_mem _ hr)
    have h2 := bodyCount_row (ord := ord.sub rules.length) (full := body)
      (fun α β ord e => h v α β ord (by rw [← e]; exact List.mem_cons_self ..)) (α := []) rfl
    simp only [followRulesCount, List.map_cons, List.sum_cons, Nat.add_mul]
    omega

/-- C81 with a bound on what can be empty: if every part of a body from which the empty string can be derived has at most
`k` variables, the number of bodies looked at is at most the power `k + 3` of the size of the grammar. -/
theorem c81_row_partial (g : Grammar V T) (hg : Built g) (k : Nat) (hk : AtMostInARow g k) (ord : HashOrder)
    (fuel : Nat) : g.followCount ord fuel ≤ (rulesSize g + 1) ^ (k + 3) := by
  have wf := hg.wellFormed
  have h1 := rulesCount_row (g := g) (ord := ord.sub 1) (fuel := fuel) (rules := (ord.sub 0).grouped Prod.fst g.rules)
    fun v α β ord hr => count_row wf hk ord fuel (by rwa [HashOrder.mem_grouped] at hr)
  rw [(((ord.sub 0).grouped_perm Prod.fst g.rules).map _).sum_nat] at h1
  refine Nat.le_trans h1 ?_
  have e : rulesSize g = (g.rules.map fun r => r.2.length).sum + g.rules.length := by
    unfold rulesSize
    induction g.rules with
    | nil => rfl
    | cons a l ih => simp only [List.map_cons, List.sum_cons, ih, List.length_cons]; omega
  have hpos : 0 < g.rules.length := by
    obtain ⟨β, h⟩ := wf.start
    exact List.length_pos_of_mem h
  have hu : (firstUniverse g).length = (g.rules.map fun r => r.2.length).sum + 1 := by
    simp only [firstUniverse, List.length_cons, List.length_flatMap]
  have h2 : ((firstUniverse g).length + 1) ^ (k + 1) ≤ (rulesSize g + 1) ^ (k + 1) :=
    Nat.pow_le_pow_left (by omega) _
  have e3 : (rulesSize g + 1) ^ (k + 3) = (rulesSize g + 1) * ((rulesSize g + 1) * (rulesSize g + 1) ^ (k + 1)) := by
    rw [← Nat.pow_succ', ← Nat.pow_succ']
  rw [e3]
  exact Nat.mul_le_mul (by omega) (Nat.mul_le_mul (by omega) h2)

/-- C81 without epsilon: the number of bodies looked at is at most the cube of the size of the grammar. -/
theorem c81_free_partial (g : Grammar V T) (hg : Built g) (hfree : ∀ v β, (v, β) ∈ g.rules → .eps ∉ β)
    (ord : HashOrder) (fuel : Nat) : g.followCount ord fuel ≤ (rulesSize g + 1) ^ 3 := by
  refine c81_row_partial g hg 0 (fun v α β γ hr hn => ?_) ord fuel
  have key : ∀ α, Nullable g α → .eps ∉ α → α = [] := by
    intro α h
    induction h with
    | nil => exact fun _ => rfl
    | eps _ _ => exact fun h => absurd (List.mem_cons_self ..) h
    | var hr hn _ ih _ =>
      have := ih (hfree _ _ hr)
      subst this
      exact absurd rfl (hg.wellFormed.nonempty _ _ hr)
  have : β = [] := key β (inFirst_iff.1 hn) fun h => hfree v _ hr (by simp [h])
  subst this
  exact Nat.le_refl _

/-- C81 with short bodies: if no body has more than `k` symbols, the number of bodies looked at is at most the power
`k + 3` of the size of the grammar. -/
theorem c81_short_partial (g : Grammar V T) (hg : Built g) (k : Nat) (hk : ∀ v β, (v, β) ∈ g.rules → β.length ≤ k)
    (ord : HashOrder) (fuel : Nat) : g.followCount ord fuel ≤ (rulesSize g + 1) ^ (k + 3) := by
  refine c81_row_partial g hg k (fun v α β γ hr _ => ?_) ord fuel
  have h1 := hk v _ hr
  have h2 : variablesIn β ≤ β.length := List.length_filter_le ..
  simp only [List.length_append] at h1
  omega

/-- The hypotheses are met by a grammar with variables that can be empty. -/
example : Built exampleGrammar ∧ AtMostInARow exampleGrammar 2 ∧
    (∃ r, exampleGrammar.followSet .reversed 50 = .ok r) ∧ exampleGrammar.followCount .reversed 50 = 11 := by
  refine ⟨exampleGrammar_built, fun v α β γ hr _ => ?_, ⟨[("B", [.term "b", .term "c"]), ("S", [.term "b", .term "c"]),
    ("A", [.term "c"])], by decide⟩, by decide +kernel⟩
  have h : ∀ e ∈ exampleGrammar.rules, variablesIn e.2 ≤ 2 := by decide
  have h1 := h _ hr
  simp only [variablesIn, List.filter_append, List.length_append] at h1 ⊢
  omega

/-- The hypotheses are met by a left recursive grammar without epsilon, where the FIRST set of `E` is needed behind
`T`. -/
example : ∃ g : Grammar String String, (runCalls [.setStart "S", .addRules "S" [[.var "T", .var "E"]],
    .addRules "E" [[.var "E", .term "+", .var "T"], [.var "T"]], .addRule "T" [.term "i"]]).build = .ok g ∧
    (∀ v β, (v, β) ∈ g.rules → .eps ∉ β) ∧ g.followCount .insertion 50 = 8 := by
  refine ⟨⟨"S", [("S", [.var "T", .var "E"]), ("E", [.var "E", .term "+", .var "T"]), ("E", [.var "T"]),
    ("T", [.term "i"])]⟩, by decide, ?_, by decide +kernel⟩
  intro v β h
  have : ∀ e ∈ [("S", [.var "T", .var "E"]), ("E", [.var "E", .term "+", .var "T"]), ("E", [.var "T"]),
    ("T", [(.term "i" : Sym String String)])], .eps ∉ e.2 := by decide
  exact this _ h

/-! ## A lower bound -/

/-- Specification: the number of places in the rules where a variable has something behind it. -/
def placesInside (rules : List (V × Body V T)) : Nat := (rules.map fun r => variablesIn r.2.dropLast).sum

private theorem placesIn_le (g : Grammar V T) (ord : HashOrder) (n : Nat) (β : Body V T) :
    variablesIn β.dropLast ≤ followBodyCount g ord (n + 1) β := by
  induction β with
  | nil => exact Nat.zero_le _
  | cons x β ih =>
    cases β with
    | nil => exact Nat.zero_le _
    | cons y β =>
      rw [List.dropLast_cons_cons]
      cases x with
      | term t => exact ih
      | eps => exact ih
      | var w =>
        have h1 : variablesIn ((.var w : Sym V T) :: (y :: β).dropLast) = variablesIn (y :: β).dropLast + 1 := rfl
        have h2 : 1 ≤ firstBodiesCount g (ord.sub (y :: β).length) (n + 1) none [y :: β] := by
          rw [firstBodiesCount, firstCount]
          exact Nat.le_add_right _ _
        rw [h1, followBodyCount, if_neg (by simp)]
        omega

/-- C81: no less is done than to look at the rest of a body for each place where a variable has something behind it, in
every rule. -/
theorem c81_least (g : Grammar V T) (ord : HashOrder) (fuel : Nat) (r : List (V × List (Sym V T)))
    (h : g.followSet ord fuel = .ok r) : placesInside g.rules ≤ g.followCount ord fuel := by
  rw [← c81_final g ord fuel r h (fuel + 1) (Nat.le_succ _)]
  have key : ∀ (ord : HashOrder) (rules : List (V × Body V T)),
      placesInside rules ≤ followRulesCount g ord (fuel + 1) rules := by
    intro ord rules
    induction rules with
    | nil => exact Nat.le_refl _
    | cons e rules ih => exact Nat.add_le_add (placesIn_le g _ fuel e.2) ih
  have hp : placesInside g.rules = placesInside ((ord.sub 0).grouped Prod.fst g.rules) :=
    ((((ord.sub 0).grouped_perm Prod.fst g.rules).map _).sum_nat).symm
  rw [hp]
  exact key _ _

/-- There are three such places in the example, in two rules. -/
example : (∃ r, exampleGrammar.followSet .reversed 50 = .ok r) ∧
    placesInside exampleGrammar.rules = 3 := by
  refine ⟨⟨[("B", [.term "b", .term "c"]), ("S", [.term "b", .term "c"]), ("A", [.term "c"])], by decide⟩, by decide⟩

end

/-! ## A grammar that takes long -/

/-- Specification: the calls for `whole → front opt₀ ... optₙ₋₁`, `front → tₙ`, `optᵢ → ε | realᵢ`, `realᵢ → tᵢ`. -/
def optCalls (n : Nat) : List (BuilderCall OptVar Nat) :=
  .setStart .whole :: .addRule .whole (.var .front :: (List.range n).map fun i => .var (.opt i)) ::
    .addRule .front [.term n] ::
    ((List.range n).map fun i => .addRules (.opt i) [[.eps], [.var (.real i)]]) ++
    (List.range n).map fun i => .addRule (.real i) [.term i]

theorem opts_range (n : Nat) : (List.range n).map (fun i => (.var (.opt i) : OptSym)) = opts n 0 := by
  have : ∀ k m, (List.range' m k).map (fun i => (.var (.opt i) : OptSym)) = optsFrom m k := by
    intro k
    induction k with
    | zero => exact fun _ => rfl
    | succ k ih => intro m; rw [List.range'_succ, List.map_cons, ih, optsFrom]
  rw [List.range_eq_range', this]
  rfl

theorem optCalls_added (n : Nat) (v : OptVar) (β : Body OptVar Nat) : Added (optCalls n) v β ↔
    (v = .whole ∧ β = .var .front :: opts n 0) ∨ (v = .front ∧ β = [.term n]) ∨
      ∃ i, i < n ∧ (v = .opt i ∧ (β = [.eps] ∨ β = [.var (.real i)]) ∨ v = .real i ∧ β = [.term i]) := by
  simp only [Added, optCalls, opts_range, List.cons_append, List.mem_cons, List.mem_append, List.mem_map, List.mem_range,
    reduceCtorEq, false_or, BuilderCall.addRule.injEq, BuilderCall.addRules.injEq, and_false, exists_false, or_false]
  constructor
  · rintro ⟨b, (⟨rfl, rfl⟩ | ⟨rfl, rfl⟩ | ⟨i, hi, rfl, rfl⟩) | ⟨bs, ⟨i, hi, rfl, rfl⟩, hb⟩, rfl⟩
    · exact .inl ⟨rfl, rfl⟩
    · exact .inr (.inl ⟨rfl, rfl⟩)
    · exact .inr (.inr ⟨i, hi, .inr ⟨rfl, rfl⟩⟩)
    · simp only [List.mem_cons, List.not_mem_nil, or_false] at hb
      rcases hb with rfl | rfl
      · exact .inr (.inr ⟨i, hi, .inl ⟨rfl, .inl rfl⟩⟩)
      · exact .inr (.inr ⟨i, hi, .inl ⟨rfl, .inr rfl⟩⟩)
  · rintro (⟨rfl, rfl⟩ | ⟨rfl, rfl⟩ | ⟨i, hi, ⟨rfl, rfl | rfl⟩ | ⟨rfl, rfl⟩⟩)
    · exact ⟨_, .inl (.inl ⟨rfl, rfl⟩), rfl⟩
    · exact ⟨_, .inl (.inr (.inl ⟨rfl, rfl⟩)), rfl⟩
    · exact ⟨[.eps], .inr ⟨_, ⟨i, hi, rfl, rfl⟩, by simp⟩, rfl⟩
    · exact ⟨[.var (.real i)], .inr ⟨_, ⟨i, hi, rfl, rfl⟩, by simp⟩, rfl⟩
    · exact ⟨_, .inl (.inr (.inr ⟨i, hi, rfl, rfl⟩)), rfl⟩

theorem optCalls_start (n : Nat) : lastStart (optCalls n) = some .whole := by
  have h1 : ∀ l : List Nat, lastStart (l.map fun i => (.addRule (.real i) [.term i] : BuilderCall OptVar Nat)) = none := by
    intro l
    induction l with
    | nil => rfl
    | cons a l ih => simpa [lastStart] using ih
  have h2 : ∀ l l' : List Nat, lastStart (l.map (fun i => (.addRules (.opt i) [[.eps], [.var (.real i)]] :
      BuilderCall OptVar Nat)) ++ l'.map fun i => .addRule (.real i) [.term i]) = none := by
    intro l l'
    induction l with
    | nil => exact h1 l'
    | cons a l ih => simpa [lastStart] using ih
  simp [optCalls, lastStart, h2]

theorem mem_opts {n m : Nat} {x : OptSym} (h : x ∈ opts n m) : ∃ i, i < n ∧ x = .var (.opt i) := by
  have : ∀ k m, x ∈ optsFrom m k → ∃ i, i < m + k ∧ x = .var (.opt i) := by
    intro k
    induction k with
    | zero => intro m h; cases h
    | succ k ih =>
      intro m h
      rcases List.mem_cons.1 h with rfl | h
      · exact ⟨m, by omega, rfl⟩
      · obtain ⟨i, h1, h2⟩ := ih _ h
        exact ⟨i, by omega, h2⟩
  by_cases hm : m ≤ n
  · obtain ⟨i, h1, h2⟩ := this _ _ h
    exact ⟨i, by omega, h2⟩
  · rw [opts, show n - m = 0 by omega] at h
    cases h

theorem opts_length (n : Nat) : (opts n 0).length = n := by
  rw [← opts_range]; simp

theorem optCalls_builds (n : Nat) : ∃ g, (runCalls (optCalls n)).build = .ok g ∧ g.rules.Nodup ∧
    ∀ v β, (v, β) ∈ g.rules ↔ Added (optCalls n) v β := by
  rcases c26_build (optCalls n) with ⟨_, h | ⟨v, h1, h2⟩⟩ | ⟨g, h1, _, _, h2, h3⟩
  · rw [optCalls_start] at h
    cases h
  · refine absurd ?_ h2
    have hopt : ∀ i, i < n → HasRule (optCalls n) (.opt i) := fun i hi =>
      ⟨[.eps], (optCalls_added ..).2 (.inr (.inr ⟨i, hi, .inl ⟨rfl, .inl rfl⟩⟩))⟩
    rcases h1 with h | ⟨head, body, h, hv⟩
    · rw [optCalls_start] at h
      cases h
      exact ⟨_, (optCalls_added ..).2 (.inl ⟨rfl, rfl⟩)⟩
    · rcases (optCalls_added ..).1 h with ⟨_, rfl⟩ | ⟨_, rfl⟩ | ⟨i, hi, ⟨_, rfl | rfl⟩ | ⟨_, rfl⟩⟩
      · rcases List.mem_cons.1 hv with hv | hv
        · cases hv
          exact ⟨_, (optCalls_added ..).2 (.inr (.inl ⟨rfl, rfl⟩))⟩
        · obtain ⟨i, hi, e⟩ := mem_opts hv
          cases e
          exact hopt i hi
      · simp at hv
      · simp at hv
      · simp only [List.mem_singleton, Sym.var.injEq] at hv
        subst hv
        exact ⟨_, (optCalls_added ..).2 (.inr (.inr ⟨i, hi, .inr ⟨rfl, rfl⟩⟩))⟩
      · simp at hv
  · exact ⟨g, h1, h2, h3⟩

private theorem bodiesOf_nodup {g : Grammar OptVar Nat} (h : g.rules.Nodup) (v : OptVar) : (g.bodiesOf v).Nodup := by
  unfold Grammar.bodiesOf
  revert h
  induction g.rules with
  | nil => simp
  | cons e l ih =>
    intro h
    obtain ⟨h1, h2⟩ := List.nodup_cons.1 h
    rw [List.filterMap_cons]
    by_cases hv : e.1 = v
    · simp only [hv, if_true]
      refine List.nodup_cons.2 ⟨fun h3 => ?_, ih h2⟩
      obtain ⟨e', h4, h5⟩ := List.mem_filterMap.1 h3
      split at h5
      · rename_i hv'
        rw [show e = e' from Prod.ext (hv.trans hv'.symm) (Option.some.inj h5).symm] at h1
        exact h1 h4
      · cases h5
    · simp only [hv, if_false]
      exact ih h2

theorem optCalls_optional {n : Nat} {g : Grammar OptVar Nat} (hn : g.rules.Nodup)
    (hr : ∀ v β, (v, β) ∈ g.rules ↔ Added (optCalls n) v β) : Optional n g := by
  have known : ∀ v bs, bs ≠ [] → bs.Nodup → (∀ β, (v, β) ∈ g.rules ↔ β ∈ bs) →
      ∃ bs', g.expectBodies v = .ok bs' ∧ bs'.Perm bs := by
    intro v bs hne hb h
    refine ⟨g.bodiesOf v, expectBodies_ok ?_, ?_⟩
    · obtain ⟨β, hβ⟩ := List.exists_mem_of_ne_nil bs hne
      exact List.mem_map.2 ⟨_, (h β).2 hβ, rfl⟩
    · exact (List.perm_ext_iff_of_nodup (bodiesOf_nodup hn v) hb).2 fun β => mem_bodiesOf.trans (h β)
  constructor
  · intro i hi
    obtain ⟨bs, h1, h2⟩ := known (.opt i) [[.eps], [.var (.real i)]] (by simp) (by simp) fun β => by
      rw [hr, optCalls_added]
      simp only [reduceCtorEq, false_and, false_or, OptVar.opt.injEq, or_false, List.mem_cons, List.not_mem_nil]
      constructor
      · rintro ⟨j, _, rfl, h⟩
        exact h
      · exact fun h => ⟨i, hi, rfl, h⟩
    exact ⟨bs, h1, .of_perm h2⟩
  · intro i hi
    obtain ⟨bs, h1, h2⟩ := known (.real i) [[.term i]] (by simp) (by simp) fun β => by
      rw [hr, optCalls_added]
      simp only [reduceCtorEq, false_and, false_or, OptVar.real.injEq, List.mem_cons, List.not_mem_nil, or_false]
      constructor
      · rintro ⟨j, _, rfl, h⟩
        exact h
      · exact fun h => ⟨i, hi, rfl, h⟩
    rw [h1, List.perm_singleton.1 h2]

/-- C81: the number of bodies doubles with each variable that is added, whatever the iteration orders. -/
theorem c81_doubling (n : Nat) (hn : 3 ≤ n) : ∃ g, (runCalls (optCalls n)).build = .ok g ∧
    rulesSize g ≤ (3 * n + 2) * (n + 2) ∧
    ∃ enough, ∀ fuel ≥ enough, ∀ ord, (∃ r, g.followSet ord fuel = .ok r) ∧ 2 ^ (n - 2) ≤ g.followCount ord fuel := by
  obtain ⟨g, hg, hnd, hr⟩ := optCalls_builds n
  refine ⟨g, hg, ?_, ?_⟩
  · have h1 : g.rules.length ≤ ((OptVar.whole, .var .front :: opts n 0) :: (.front, [.term n]) ::
        (List.range n).flatMap fun i => [(.opt i, [.eps]), (.opt i, [.var (.real i)]), (.real i, [.term i])]).length := by
      refine nodup_length_le hnd fun e he => ?_
      rcases (optCalls_added ..).1 ((hr e.1 e.2).1 he) with ⟨h1, h2⟩ | ⟨h1, h2⟩ | ⟨i, hi, ⟨h1, h2 | h2⟩ | ⟨h1, h2⟩⟩
      all_goals rw [show e = (e.1, e.2) from rfl, h1, h2]
      · simp
      · simp
      all_goals
        refine List.mem_cons_of_mem _ (List.mem_cons_of_mem _ (List.mem_flatMap.2 ⟨i, List.mem_range.2 hi, by simp⟩))
    have h2 : (List.range n).length = n := List.length_range
    have h3 : ((List.range n).flatMap fun i => [((.opt i : OptVar), ([.eps] : Body OptVar Nat)),
        (.opt i, [.var (.real i)]), (.real i, [.term i])]).length = n * 3 := by
      rw [List.length_flatMap]
      have := sum_map_const (List.range n) 3
      simpa using this
    simp only [List.length_cons, h3] at h1
    have h4 : rulesSize g ≤ g.rules.length * (n + 2) := by
      rw [← sum_map_const]
      refine sum_map_le fun e he => ?_
      have := opts_length n
      rcases (optCalls_added ..).1 ((hr e.1 e.2).1 he) with ⟨_, h2⟩ | ⟨_, h2⟩ | ⟨i, hi, ⟨_, h2 | h2⟩ | ⟨_, h2⟩⟩
      all_goals rw [h2]; simp; try omega
    exact Nat.le_trans h4 (Nat.mul_le_mul_right _ (by omega))
  · have hb : Built g := ⟨_, hg⟩
    obtain ⟨bound, h⟩ := c29_follow hb
    refine ⟨max bound (5 * n), fun fuel hf ord => ⟨?_, ?_⟩⟩
    · obtain ⟨r, h, _⟩ := h fuel (by omega) ord
      exact ⟨r, h⟩
    · have key : ∀ (rules : List (OptVar × Body OptVar Nat)), (OptVar.whole, .var .front :: opts n 0) ∈ rules →
          ∀ ord, 2 ^ (n - 2) ≤ followRulesCount g ord fuel rules := by
        intro rules
        induction rules with
        | nil => intro h; cases h
        | cons e rules ih =>
          intro h ord
          rw [show e = (e.1, e.2) from rfl, followRulesCount]
          rcases List.mem_cons.1 h with rfl | h
          · have h1 := opts_count (optCalls_optional hnd hr) hn ((ord.sub rules.length).sub (opts n 0).length)
              (fuel := fuel) (by omega)
            have h2 : (opts n 0).isEmpty = false := by
              rw [opts_cons (by omega)]; rfl
            simp only [followBodyCount, h2, Bool.false_eq_true, if_false]
            omega
          · have := ih h ord
            omega
      exact key _ (by rw [HashOrder.mem_grouped, hr, optCalls_added]; exact .inl ⟨rfl, rfl⟩) _

/-- C81 is false: a body that is looked at again waits once more for each of its variables, so it is looked at more
often each time. -/
theorem c81_false : ¬ QuickSets := by
  rintro ⟨a, k, h⟩
  obtain ⟨n, hn⟩ := exp_beats_poly (4 * (a * 7 ^ k) + 8) (2 * k)
  have hpos : 0 < (n + 1) ^ (2 * k) := Nat.pow_pos (by omega)
  have hn3 : 3 ≤ n := by
    refine Nat.le_of_not_lt fun h3 => ?_
    have h1 : 2 ^ n ≤ 2 ^ 2 := Nat.pow_le_pow_right (by omega) (by omega)
    have h2 := Nat.mul_le_mul_left (4 * (a * 7 ^ k) + 8) hpos
    omega
  obtain ⟨g, h1, hsize, enough, h2⟩ := c81_doubling n hn3
  obtain ⟨⟨r, h3⟩, h4⟩ := h2 enough (Nat.le_refl _) .insertion
  have h5 := h OptVar Nat g ⟨_, h1⟩ enough .insertion r h3
  have h6 : rulesSize g + 1 ≤ 7 * ((n + 1) ^ 2) := by
    have e1 : (3 * n + 2) * (n + 2) ≤ (3 * (n + 1)) * (2 * (n + 1)) := Nat.mul_le_mul (by omega) (by omega)
    have e2 : (3 * (n + 1)) * (2 * (n + 1)) = 6 * ((n + 1) ^ 2) := by
      rw [Nat.pow_two, Nat.mul_mul_mul_comm]
    have e3 : 0 < (n + 1) ^ 2 := Nat.pow_pos (by omega)
    omega
  have h7 : (rulesSize g + 1) ^ k ≤ 7 ^ k * (n + 1) ^ (2 * k) := by
    have := Nat.pow_le_pow_left h6 k
    rwa [Nat.mul_pow, ← Nat.pow_mul] at this
  have h8 : 2 ^ n = 4 * 2 ^ (n - 2) := by
    rw [show n = n - 2 + 2 by omega, Nat.pow_add, Nat.mul_comm]; rfl
  have h9 := Nat.mul_le_mul_left a h7
  rw [← Nat.mul_assoc] at h9
  rw [Nat.add_mul, Nat.mul_assoc] at hn
  omega

end Pango.Props
