import Verif.Proofs.Between
import Verif.Props.Automaton
import Verif.Props.Memory

/-!
# C77: the number of states of the automaton
-/

namespace Pango.Props

open Pango Pango.Parse Pango.Spec

variable {V T : Type} [DecidableEq V] [DecidableEq T]

/-- Specification: the list has every item set of the automaton, as sets. -/
def AllSets (c : Cfsm V T) (sets : List (ItemSet V T)) : Prop :=
  ∀ s ∈ c.states, ∃ J ∈ sets, ∀ p, p ∈ s.items ↔ p ∈ J

/-- C77 as stated: the number of states is at most polynomial in the number of different item sets. -/
def FewStates : Prop :=
  ∃ a k : Nat, ∀ (V T : Type) [DecidableEq V] [DecidableEq T] (g : Grammar V T), Built g →
    ∀ (fuel : Nat) (ord : HashOrder) (c : Cfsm V T), Cfsm.fromGrammar g ord fuel = .ok c →
      ∀ sets, AllSets c sets → c.states.length ≤ a * (sets.length + 1) ^ k

/-! ## A grammar with too many states -/

/-- Specification: the bodies of `X_l → a X_(l+1) | b X_(l+1)` for `l < n`, and of `X_n → a | b`. -/
def layerBody (n l : Nat) (t : Bool) : Body Nat Bool :=
  if l < n then [.term t, .var (l + 1)] else [.term t]

/-- Specification: the calls that make the grammar with the rules `X_l → a X_(l+1) | b X_(l+1)` for `l < n` and
`X_n → a | b`. -/
def layerCalls (n : Nat) : List (BuilderCall Nat Bool) :=
  .setStart 0 :: (List.range (n + 1)).map fun l => .addRules l [layerBody n l true, layerBody n l false]

/-- A grammar with these rules. -/
structure Layered (n : Nat) (g : Grammar Nat Bool) : Prop where
  built : Built g
  start : g.start = 0
  rules : ∀ v β, (v, β) ∈ g.rules ↔ v ≤ n ∧ ∃ t, β = layerBody n v t

/-- The first item of a layer. -/
def frontItem (n l : Nat) (t : Bool) : Nat × Item Nat Bool := (l, ⟨layerBody n l t, 0⟩)
/-- The item behind the terminal. -/
def midItem (n l : Nat) (t : Bool) : Nat × Item Nat Bool := (l, ⟨layerBody n l t, 1⟩)
/-- The item behind the variable. -/
def endItem (n l : Nat) (t : Bool) : Nat × Item Nat Bool := (l, ⟨layerBody n l t, 2⟩)

/-- The items of a layer. -/
def Front (n l : Nat) (p : Nat × Item Nat Bool) : Prop := ∃ t, p = frontItem n l t

/-- The set is one of those reached by reading `l` terminals. -/
def Level (n : Nat) : Nat → ItemSet Nat Bool → Prop
  | 0, I => ∀ p, p ∈ I ↔ Front n 0 p
  | l + 1, I => ∃ t, ∀ p, p ∈ I ↔ p = midItem n l t ∨ Front n (l + 1) p

/-- The set has only one item, at the end of a rule. -/
def Single (n : Nat) (I : ItemSet Nat Bool) : Prop :=
  ∃ t, (∀ p, p ∈ I ↔ p = midItem n n t) ∨ ∃ l, l < n ∧ ∀ p, p ∈ I ↔ p = endItem n l t

variable {n : Nat}

theorem layered_added (n v : Nat) (β : Body Nat Bool) :
    Added (layerCalls n) v β ↔ v ≤ n ∧ ∃ t, β = layerBody n v t := by
  have hne : ∀ l t, (layerBody n l t).isEmpty = false := by
    intro l t
    unfold layerBody
    by_cases h : l < n <;> simp [h]
  simp only [Added, layerCalls]
  constructor
  · rintro ⟨b, h | ⟨bs, h, hb⟩, rfl⟩
    · simp at h
    · rcases List.mem_cons.1 h with h | h
      · cases h
      · obtain ⟨l, hl, e⟩ := List.mem_map.1 h
        cases e
        have := List.mem_range.1 hl
        simp only [List.mem_cons, List.not_mem_nil, or_false] at hb
        rcases hb with rfl | rfl
        · exact ⟨by omega, true, by simp [hne]⟩
        · exact ⟨by omega, false, by simp [hne]⟩
  · rintro ⟨hv, t, rfl⟩
    refine ⟨layerBody n v t, .inr ⟨_, List.mem_cons_of_mem _ (List.mem_map.2 ⟨v, List.mem_range.2 (by omega), rfl⟩), ?_⟩,
      by simp [hne]⟩
    cases t <;> simp

theorem layered_start (n : Nat) : lastStart (layerCalls n) = some 0 := by
  have : ∀ l : List Nat, lastStart (l.map fun l => BuilderCall.addRules l [layerBody n l true, layerBody n l false]) =
      none := by
    intro l
    induction l with
    | nil => rfl
    | cons a l ih => simpa [lastStart] using ih
  simp [layerCalls, lastStart, this]

theorem layered_exists (n : Nat) : ∃ g, (runCalls (layerCalls n)).build = .ok g ∧ Layered n g := by
  rcases c26_build (layerCalls n) with ⟨_, h | ⟨v, h1, h2⟩⟩ | ⟨g, h1, _, h2, _, h3⟩
  · rw [layered_start] at h
    cases h
  · refine absurd ⟨layerBody n v true, (layered_added ..).2 ⟨?_, true, rfl⟩⟩ h2
    rcases h1 with h | ⟨head, body, h, hv⟩
    · rw [layered_start] at h
      cases h
      omega
    · obtain ⟨h3, t, rfl⟩ := (layered_added ..).1 h
      unfold layerBody at hv
      by_cases hl : head < n
      · simp only [hl, if_true, List.mem_cons, List.not_mem_nil, or_false, reduceCtorEq, false_or,
          Sym.var.injEq] at hv
        omega
      · simp [hl] at hv
  · rw [layered_start] at h2
    exact ⟨g, h1, ⟨_, h1⟩, (Option.some.inj h2).symm, fun v β => (h3 v β).trans (layered_added ..)⟩

theorem frontItem_symbol (l : Nat) (t : Bool) : (frontItem n l t).2.cursorSymbol = some (.term t) := by
  unfold frontItem Item.cursorSymbol layerBody
  by_cases h : l < n <;> simp [h]

theorem frontItem_advance (l : Nat) (t : Bool) : (frontItem n l t).2.advance = (midItem n l t).2 := by
  unfold frontItem midItem Item.advance layerBody
  by_cases h : l < n <;> simp [h, leadingEpsilons]

theorem midItem_symbol {l : Nat} (h : l < n) (t : Bool) : (midItem n l t).2.cursorSymbol = some (.var (l + 1)) := by
  simp [midItem, Item.cursorSymbol, layerBody, h]

theorem midItem_advance {l : Nat} (h : l < n) (t : Bool) : (midItem n l t).2.advance = (endItem n l t).2 := by
  simp [midItem, endItem, Item.advance, layerBody, h, leadingEpsilons]

theorem midItem_last (t : Bool) : (midItem n n t).2.cursorSymbol = none := by
  simp [midItem, Item.cursorSymbol, layerBody]

theorem endItem_symbol {l : Nat} (h : l < n) (t : Bool) : (endItem n l t).2.cursorSymbol = none := by
  simp [endItem, Item.cursorSymbol, layerBody, h]

theorem layer_ofBody (l : Nat) (t : Bool) : (l, Item.ofBody (layerBody n l t)) = frontItem n l t := by
  unfold frontItem Item.ofBody layerBody
  by_cases h : l < n <;> simp [h, leadingEpsilons]

variable {g : Grammar Nat Bool}

/-- Completing the item behind a terminal. -/
theorem Layered.closure_mid (hg : Layered n g) {l : Nat} (hl : l < n) {t : Bool}
    {given : Nat × Item Nat Bool → Prop} (h : ∀ q, given q ↔ q = midItem n l t) (p : Nat × Item Nat Bool) :
    Closure g given p ↔ p = midItem n l t ∨ Front n (l + 1) p := by
  constructor
  · intro hp
    induction hp with
    | given hp => exact .inl ((h _).1 hp)
    | @expand h' v i j β _ hr hβ hf ih =>
      obtain ⟨hv, t', rfl⟩ := (hg.rules _ _).1 hβ
      rw [fresh_iff.1 hf, layer_ofBody]
      rw [reads_iff] at hr
      rcases ih with ih | ⟨t'', ih⟩
      · have := midItem_symbol hl t
        rw [← ih, hr] at this
        cases this
        exact .inr ⟨t', rfl⟩
      · have := frontItem_symbol (n := n) (l + 1) t''
        rw [← ih, hr] at this
        cases this
  · rintro (rfl | ⟨t', rfl⟩)
    · exact .given ((h _).2 rfl)
    · rw [← layer_ofBody]
      refine .expand (h := l) (i := (midItem n l t).2) (.given ((h _).2 rfl)) (reads_iff.2 (midItem_symbol hl t))
        ((hg.rules _ _).2 ⟨by omega, t', rfl⟩) (fresh_iff.2 rfl)

/-- Completing a complete item. -/
theorem closure_single {q₀ : Nat × Item Nat Bool} (h0 : q₀.2.cursorSymbol = none)
    {given : Nat × Item Nat Bool → Prop} (h : ∀ q, given q ↔ q = q₀) (p : Nat × Item Nat Bool) :
    Closure g given p ↔ p = q₀ := by
  constructor
  · intro hp
    induction hp with
    | given hp => exact (h _).1 hp
    | expand _ hr _ _ ih =>
      rw [reads_iff] at hr
      rw [← ih] at h0
      rw [h0] at hr
      cases hr
  · exact fun hp => .given ((h _).2 hp)

theorem Layered.closure_start (hg : Layered n g) (p : Nat × Item Nat Bool) :
    Closure g (Start g) p ↔ Front n 0 p := by
  constructor
  · intro hp
    induction hp with
    | given hp =>
      obtain ⟨β, h1, rfl⟩ := hp
      rw [hg.start] at h1 ⊢
      obtain ⟨_, t, rfl⟩ := (hg.rules _ _).1 h1
      exact ⟨t, layer_ofBody 0 t⟩
    | @expand h' v i j β _ hr hβ hf ih =>
      obtain ⟨t, ih⟩ := ih
      rw [reads_iff] at hr
      have := frontItem_symbol (n := n) 0 t
      rw [← ih, hr] at this
      cases this
  · rintro ⟨t, rfl⟩
    refine .given ⟨layerBody n 0 t, ?_, ?_⟩
    · rw [hg.start]
      exact (hg.rules _ _).2 ⟨by omega, t, rfl⟩
    · rw [hg.start, layer_ofBody]

/-- The items of a set that are in front of a terminal. -/
theorem Level.term {l : Nat} (hl : l ≤ n) {I : ItemSet Nat Bool} (h : Level n l I) {p : Nat × Item Nat Bool} {t : Bool} :
    p ∈ I ∧ p.2.cursorSymbol = some (.term t) ↔ p = frontItem n l t := by
  constructor
  · rintro ⟨hp, hx⟩
    have hfront : ∀ l, Front n l p → p = frontItem n l t := by
      rintro l ⟨t', rfl⟩
      rw [frontItem_symbol] at hx
      cases hx
      rfl
    cases l with
    | zero => exact hfront _ ((h p).1 hp)
    | succ l =>
      obtain ⟨t', h⟩ := h
      rcases (h p).1 hp with rfl | hp
      · rw [midItem_symbol (by omega)] at hx
        cases hx
      · exact hfront _ hp
  · rintro rfl
    refine ⟨?_, frontItem_symbol l t⟩
    cases l with
    | zero => exact (h _).2 ⟨t, rfl⟩
    | succ l =>
      obtain ⟨t', h⟩ := h
      exact (h _).2 (.inr ⟨t, rfl⟩)

theorem Level.next_term {l : Nat} (hl : l ≤ n) {I : ItemSet Nat Bool} (h : Level n l I) (t : Bool)
    (q : Nat × Item Nat Bool) : Next I (.term t) q ↔ q = midItem n l t := by
  constructor
  · rintro ⟨h', i, h1, h2, rfl⟩
    have := (h.term hl (p := (h', i))).1 ⟨h1, h2⟩
    have e1 : h' = l := congrArg Prod.fst this
    have e2 : i = (frontItem n l t).2 := congrArg Prod.snd this
    rw [e1, e2, frontItem_advance]
    rfl
  · rintro rfl
    have := (h.term hl (p := frontItem n l t)).2 rfl
    exact ⟨l, (frontItem n l t).2, this.1, this.2, by rw [frontItem_advance]; rfl⟩

/-- Reading a terminal leads to the next level. -/
theorem Layered.goto_term (hg : Layered n g) {l : Nat} (hl : l < n) {I J : ItemSet Nat Bool} (h : Level n l I)
    {t : Bool} (hJ : ∀ p, p ∈ J ↔ Closure g (Next I (.term t)) p) : Level n (l + 1) J :=
  ⟨t, fun p => (hJ p).trans (hg.closure_mid hl (h.next_term (by omega) t) p)⟩

/-- Every set reached from a set of the automaton is of one of the two kinds. -/
theorem Layered.goto (hg : Layered n g) {I J : ItemSet Nat Bool} {x : Sym Nat Bool}
    (h : (∃ l, l ≤ n ∧ Level n l I) ∨ Single n I) (hx : ∃ p ∈ I, p.2.cursorSymbol = some x)
    (hJ : ∀ p, p ∈ J ↔ Closure g (Next I x) p) : (∃ l, l ≤ n ∧ Level n l J) ∨ Single n J := by
  obtain ⟨p, hp, hx⟩ := hx
  rcases h with ⟨l, hl, h⟩ | ⟨t, h | ⟨l, hl, h⟩⟩
  · have hterm : ∀ t, x = .term t → (∃ l, l ≤ n ∧ Level n l J) ∨ Single n J := by
      rintro t rfl
      by_cases hln : l < n
      · exact .inl ⟨l + 1, hln, hg.goto_term hln h hJ⟩
      · obtain rfl : l = n := by omega
        refine .inr ⟨t, .inl fun p => (hJ p).trans ?_⟩
        exact closure_single (midItem_last t) (h.next_term hl t) p
    have hfront : ∀ l, Front n l p → (∃ l, l ≤ n ∧ Level n l J) ∨ Single n J := by
      rintro l ⟨t, rfl⟩
      rw [frontItem_symbol] at hx
      exact hterm t (Option.some.inj hx).symm
    cases l with
    | zero => exact hfront _ ((h p).1 hp)
    | succ l =>
      obtain ⟨t, h'⟩ := id h
      rcases (h' p).1 hp with rfl | hp
      · rw [midItem_symbol (by omega)] at hx
        cases hx
        refine .inr ⟨t, .inr ⟨l, by omega, fun p => (hJ p).trans (closure_single (endItem_symbol (by omega) t) ?_ p)⟩⟩
        intro q
        constructor
        · rintro ⟨h1, i, h2, h3, rfl⟩
          rcases (h' _).1 h2 with e | ⟨t', e⟩
          · have e1 : h1 = l := congrArg Prod.fst e
            have e2 : i = (midItem n l t).2 := congrArg Prod.snd e
            rw [e1, e2, midItem_advance (by omega)]
            rfl
          · have e2 : i = (frontItem n (l + 1) t').2 := congrArg Prod.snd e
            rw [e2, frontItem_symbol] at h3
            cases h3
        · rintro rfl
          refine ⟨l, (midItem n l t).2, (h' _).2 (.inl rfl), midItem_symbol (by omega) t, ?_⟩
          rw [midItem_advance (by omega)]
          rfl
      · exact hfront _ hp
  · rw [(h p).1 hp, midItem_last] at hx
    cases hx
  · rw [(h p).1 hp, endItem_symbol hl] at hx
    cases hx

section
variable {c : Cfsm Nat Bool}

/-- Every state of the automaton has a set of one of the two kinds. -/
theorem Layered.kinds (hg : Layered n g) (ok : CfsmOk g c) : ∀ (k : Nat) (s : CState Nat Bool), s ∈ c.states →
    s.id = k → (∃ l, l ≤ n ∧ Level n l s.items) ∨ Single n s.items := by
  intro k
  induction k using Nat.strongRecOn with
  | ind k ih =>
    intro s hs hk
    rcases ok.parent s hs with h0 | ⟨s', hs', hlt, x, hd⟩
    · obtain ⟨s0, h1, h2⟩ := ok.start
      have := ok.index hs
      rw [h0, h1] at this
      cases this
      exact .inl ⟨0, by omega, fun p => (h2 p).trans (hg.closure_start p)⟩
    · obtain ⟨s'', h1, h2⟩ := ok.dest s' hs' x s.id hd
      rw [ok.index hs] at h1
      cases h1
      exact hg.goto (ih s'.id (by omega) s' hs' rfl) ((ok.read s' hs' x).1 (List.mem_map.2 ⟨_, hd, rfl⟩)) h2

/-- The state a state of a level was made for. -/
theorem Layered.parent (hg : Layered n g) (ok : CfsmOk g c) {l : Nat} {s : CState Nat Bool} (hs : s ∈ c.states)
    (h : Level n (l + 1) s.items) : ∃ s' ∈ c.states, Level n l s'.items ∧ s'.id < s.id ∧ ∃ x, (x, s.id) ∈ s'.transitions := by
  obtain ⟨t, h⟩ := h
  have hmem : midItem n l t ∈ s.items := (h _).2 (.inl rfl)
  rcases ok.parent s hs with h0 | ⟨s', hs', hlt, x, hd⟩
  · obtain ⟨s0, h1, h2⟩ := ok.start
    have := ok.index hs
    rw [h0, h1] at this
    cases this
    obtain ⟨t', e⟩ := (hg.closure_start _).1 ((h2 _).1 hmem)
    simp [midItem, frontItem] at e
  · obtain ⟨s'', h1, h2⟩ := ok.dest s' hs' x s.id hd
    rw [ok.index hs] at h1
    cases h1
    refine ⟨s', hs', ?_, hlt, x, hd⟩
    generalize hp : midItem n l t = p at hmem
    cases (h2 p).1 hmem with
    | given hn =>
      obtain ⟨h', i, h3, h4, h5⟩ := hn
      rw [h5] at hp
      have e1 : l = h' := congrArg Prod.fst hp
      have e2 : (midItem n l t).2 = i.advance := congrArg Prod.snd hp
      subst e1
      have hfront : ∀ k, Front n k (l, i) → k = l := by
        rintro k ⟨t', e⟩
        exact (congrArg Prod.fst e).symm
      rcases hg.kinds ok _ s' hs' rfl with ⟨k, hk, hl⟩ | ⟨t', hl | ⟨k, hk, hl⟩⟩
      · cases k with
        | zero =>
          obtain rfl := hfront 0 ((hl _).1 h3)
          exact hl
        | succ k =>
          obtain ⟨t', hl'⟩ := id hl
          rcases (hl' _).1 h3 with e | e
          · have e3 : i = (midItem n k t').2 := congrArg Prod.snd e
            rw [e3, midItem_advance (by omega)] at e2
            simp [midItem, endItem] at e2
          · obtain rfl := hfront _ e
            exact hl
      · have e3 : i = (midItem n n t').2 := congrArg Prod.snd ((hl _).1 h3)
        rw [e3, midItem_last] at h4
        cases h4
      · have e3 : i = (endItem n k t').2 := congrArg Prod.snd ((hl _).1 h3)
        rw [e3, endItem_symbol hk] at h4
        cases h4
    | @expand h' v i j β _ hr hβ hf =>
      obtain ⟨hv, t', rfl⟩ := (hg.rules _ _).1 hβ
      rw [fresh_iff.1 hf, layer_ofBody] at hp
      simp [midItem, frontItem] at hp

/-- Only the start state is at the first level. -/
theorem Layered.first (hg : Layered n g) (ok : CfsmOk g c) {s : CState Nat Bool} (hs : s ∈ c.states)
    (h : Level n 0 s.items) : s.id = 0 := by
  rcases ok.parent s hs with h0 | ⟨s', hs', hlt, x, hd⟩
  · exact h0
  · exfalso
    obtain ⟨s'', h1, h2⟩ := ok.dest s' hs' x s.id hd
    rw [ok.index hs] at h1
    cases h1
    obtain ⟨⟨h', i⟩, hp, hx⟩ := (ok.read s' hs' x).1 (List.mem_map.2 ⟨_, hd, rfl⟩)
    have h3 : (h', i.advance) ∈ s.items := (h2 _).2 (.given ⟨h', i, hp, hx, rfl⟩)
    obtain ⟨t, e⟩ := (h _).1 h3
    have e1 : i.advance.cursor = 0 := congrArg (fun p => p.2.cursor) e
    have e2 : i.cursor < i.body.length := by
      simp only [Item.cursorSymbol] at hx
      exact (List.getElem?_eq_some_iff.1 hx).1
    simp only [Item.advance] at e1
    omega

/-- All states of a level come before all states of the next level. -/
theorem Layered.sorted (hg : Layered n g) (ok : CfsmOk g c) (gr : Grown c.states (c.states.map fun s => (s.id, s.items))) :
    ∀ (l : Nat) (s s' : CState Nat Bool), s ∈ c.states → s' ∈ c.states → Level n l s.items →
      Level n (l + 1) s'.items → s.id < s'.id := by
  intro l
  induction l with
  | zero =>
    intro s s' hs hs' h h'
    obtain ⟨p, hp, _, hlt, _⟩ := hg.parent ok hs' h'
    rw [hg.first ok hs h]
    omega
  | succ l ih =>
    intro s s' hs hs' h h'
    obtain ⟨p, hp, hpl, hlt, x, hx⟩ := hg.parent ok hs h
    obtain ⟨p', hp', hpl', hlt', x', hx'⟩ := hg.parent ok hs' h'
    exact gr.mono p hp p' hp' x x' _ _ hx hx' hlt hlt' (ih p p' hp hp' hpl hpl')

/-- Each level has twice as many states as the one before. -/
theorem Layered.double (hg : Layered n g) (ok : CfsmOk g c) (gr : Grown c.states (c.states.map fun s => (s.id, s.items))) :
    ∀ l, l ≤ n → ∃ ids : List Nat, ids.length = 2 ^ l ∧ ids.Nodup ∧
      ∀ d ∈ ids, ∃ s ∈ c.states, s.id = d ∧ Level n l s.items := by
  intro l
  induction l with
  | zero =>
    intro _
    obtain ⟨s, h1, h2⟩ := ok.start
    exact ⟨[0], rfl, by simp, fun d hd => ⟨s, List.mem_of_getElem? h1, by
      rw [ok.id_of_index h1, List.mem_singleton.1 hd], fun p => (h2 p).trans (hg.closure_start p)⟩⟩
  | succ l ih =>
    intro hl
    obtain ⟨ids, h1, h2, h3⟩ := ih (by omega)
    -- the two transitions of a state
    have step : ∀ d ∈ ids, ∀ t : Bool, ∃ e, ∃ s ∈ c.states, s.id = d ∧ d < e ∧ (Sym.term t, e) ∈ s.transitions ∧
        ∃ s' ∈ c.states, s'.id = e ∧ Level n (l + 1) s'.items := by
      intro d hd t
      obtain ⟨s, hs, rfl, hlev⟩ := h3 d hd
      have h4 := (hlev.term (by omega) (t := t)).2 rfl
      obtain ⟨⟨x, e⟩, h5, h6⟩ := List.mem_map.1 ((ok.read s hs (.term t)).2 ⟨_, h4⟩)
      simp only at h6
      subst h6
      obtain ⟨s', h7, h8⟩ := ok.dest s hs _ _ h5
      have h9 := hg.goto_term (by omega) hlev h8
      have h10 := List.mem_of_getElem? h7
      have h11 := ok.id_of_index h7
      refine ⟨e, s, hs, rfl, ?_, h5, s', h10, h11, h9⟩
      have := hg.sorted ok gr l s s' hs h10 hlev h9
      omega
    -- the states they lead to
    have choice : ∀ ids' : List Nat, ids'.Nodup → (∀ d ∈ ids', d ∈ ids) → ∃ next : List Nat,
        next.length = 2 * ids'.length ∧ next.Nodup ∧
        ∀ e ∈ next, ∃ d ∈ ids', ∃ s ∈ c.states, s.id = d ∧ d < e ∧ (∃ x, (x, e) ∈ s.transitions) ∧
          ∃ s' ∈ c.states, s'.id = e ∧ Level n (l + 1) s'.items := by
      intro ids'
      induction ids' with
      | nil => exact fun _ _ => ⟨[], rfl, by simp, by simp⟩
      | cons d ids' ih' =>
        intro hn hsub
        obtain ⟨hd, hn'⟩ := List.nodup_cons.1 hn
        obtain ⟨next, g1, g2, g3⟩ := ih' hn' fun d hd => hsub d (List.mem_cons_of_mem _ hd)
        obtain ⟨e1, s1, k1, k2, k3, k4, k5⟩ := step d (hsub d (List.mem_cons_self ..)) true
        obtain ⟨e2, s2, m1, m2, m3, m4, m5⟩ := step d (hsub d (List.mem_cons_self ..)) false
        have hss : s1 = s2 := by
          have a := ok.index k1
          have b := ok.index m1
          rw [k2] at a
          rw [m2, a] at b
          exact Option.some.inj b
        subst hss
        have hne : e1 ≠ e2 := by
          rintro rfl
          have := gr.inj s1 k1 _ _ e1 k4 m4 (by omega)
          cases this
        have hnot : ∀ e x, d < e → (x, e) ∈ s1.transitions → e ∉ next := by
          intro e x hlt hx he
          obtain ⟨d', hd', s', q1, q2, q3, ⟨x', q4⟩, _⟩ := g3 e he
          rcases Nat.lt_trichotomy d d' with h | h | h
          · have := gr.mono s1 k1 s' q1 x x' e e hx q4 (by omega) (by omega) (by omega)
            omega
          · exact hd (h ▸ hd')
          · have := gr.mono s' q1 s1 k1 x' x e e q4 hx (by omega) (by omega) (by omega)
            omega
        refine ⟨e1 :: e2 :: next, by simp only [List.length_cons]; omega, ?_, ?_⟩
        · rw [List.nodup_cons, List.nodup_cons]
          refine ⟨?_, hnot e2 _ m3 m4, g2⟩
          rw [List.mem_cons]
          rintro (h | h)
          · exact hne h
          · exact hnot e1 _ k3 k4 h
        · intro e he
          rcases List.mem_cons.1 he with rfl | he
          · exact ⟨d, List.mem_cons_self .., s1, k1, k2, k3, ⟨_, k4⟩, k5⟩
          rcases List.mem_cons.1 he with rfl | he
          · exact ⟨d, List.mem_cons_self .., s1, k1, k2, m3, ⟨_, m4⟩, m5⟩
          · obtain ⟨d', hd', rest⟩ := g3 e he
            exact ⟨d', List.mem_cons_of_mem _ hd', rest⟩
    obtain ⟨next, g1, g2, g3⟩ := choice ids h2 fun _ h => h
    refine ⟨next, by rw [g1, h1, Nat.pow_succ]; omega, g2, fun e he => ?_⟩
    obtain ⟨_, _, _, _, _, _, _, h⟩ := g3 e he
    exact h

/-- The different sets of the automaton. -/
def layerSets (n : Nat) : List (ItemSet Nat Bool) :=
  [frontItem n 0 true, frontItem n 0 false] ::
    (List.range n).flatMap (fun l => [[midItem n l true, frontItem n (l + 1) true, frontItem n (l + 1) false],
      [midItem n l false, frontItem n (l + 1) true, frontItem n (l + 1) false],
      [endItem n l true], [endItem n l false]]) ++ [[midItem n n true], [midItem n n false]]

theorem layerSets_length (n : Nat) : (layerSets n).length = 4 * n + 3 := by
  have : ∀ l : List Nat, (l.flatMap (fun l => [[midItem n l true, frontItem n (l + 1) true, frontItem n (l + 1) false],
      [midItem n l false, frontItem n (l + 1) true, frontItem n (l + 1) false],
      [endItem n l true], [endItem n l false]])).length = 4 * l.length := by
    intro l
    induction l with
    | nil => rfl
    | cons a l ih => simp only [List.flatMap_cons, List.length_append, ih, List.length_cons, List.length_nil]; omega
  simp only [layerSets, List.length_append, List.length_cons, this, List.length_range, List.length_nil]

theorem Layered.allSets (hg : Layered n g) (ok : CfsmOk g c) : AllSets c (layerSets n) := by
  have front : ∀ l p, Front n l p ↔ p ∈ [frontItem n l true, frontItem n l false] := by
    intro l p
    simp only [Front, List.mem_cons, List.not_mem_nil, or_false]
    constructor
    · rintro ⟨t, rfl⟩
      cases t
      · exact .inr rfl
      · exact .inl rfl
    · rintro (h | h)
      · exact ⟨_, h⟩
      · exact ⟨_, h⟩
  intro s hs
  rcases hg.kinds ok _ s hs rfl with ⟨l, hl, h⟩ | ⟨t, h | ⟨l, hl, h⟩⟩
  · cases l with
    | zero => exact ⟨_, List.mem_append_left _ (List.mem_cons_self ..), fun p => (h p).trans (front 0 p)⟩
    | succ l =>
      obtain ⟨t, h⟩ := h
      refine ⟨[midItem n l t, frontItem n (l + 1) true, frontItem n (l + 1) false], ?_, fun p => ?_⟩
      · refine List.mem_append_left _ (List.mem_cons_of_mem _ (List.mem_flatMap.2 ⟨l, by simp; omega, ?_⟩))
        cases t <;> simp
      · rw [h p, front, List.mem_cons (a := p) (b := midItem n l t)]
  · refine ⟨[midItem n n t], List.mem_append_right _ ?_, fun p => (h p).trans (List.mem_singleton).symm⟩
    cases t <;> simp
  · refine ⟨[endItem n l t], ?_, fun p => (h p).trans (List.mem_singleton).symm⟩
    refine List.mem_append_left _ (List.mem_cons_of_mem _ (List.mem_flatMap.2 ⟨l, by simp; omega, ?_⟩))
    cases t <;> simp

end

/-- The grammar `X_l → a X_(l+1) | b X_(l+1)` for `l < n`, `X_n → a | b` with `2 n + 2` rules is built without a
crash, its automaton is built in every iteration order, and although there are at most `4 n + 3` different item sets
it has at least `2 ^ n` states. -/
theorem c77_doubling (n : Nat) : ∃ g, (runCalls (layerCalls n)).build = .ok g ∧
    ∃ enough, ∀ fuel ≥ enough, ∀ ord, ∃ c, Cfsm.fromGrammar g ord fuel = .ok c ∧ 2 ^ n ≤ c.states.length ∧
      ∃ sets, AllSets c sets ∧ sets.length = 4 * n + 3 := by
  obtain ⟨g, h1, hg⟩ := layered_exists n
  refine ⟨g, h1, cfsmFuel g, fun fuel hf ord => ?_⟩
  obtain ⟨c, hc, ok⟩ := fromGrammar_spec hg.built.wellFormed ord hf
  refine ⟨c, hc, ?_, layerSets n, hg.allSets ok, layerSets_length n⟩
  obtain ⟨ids, h2, h3, h4⟩ := hg.double ok (fromGrammar_grown hc) n (Nat.le_refl _)
  rw [← h2]
  have := nodup_length_le h3 (u := c.states.map CState.id) fun d hd => by
    obtain ⟨s, hs, h, _⟩ := h4 d hd
    exact List.mem_map.2 ⟨s, hs, h⟩
  simpa using this

/-- C77 is false: a state that is waiting to be processed is not found when its item set is reached again, so it is
made again. -/
theorem c77_false : ¬ FewStates := by
  rintro ⟨a, k, h⟩
  obtain ⟨n, hn⟩ := exp_beats_poly (a * 4 ^ k) k
  obtain ⟨g, h1, enough, h2⟩ := c77_doubling n
  obtain ⟨c, h3, h4, sets, h5, h6⟩ := h2 enough (Nat.le_refl _) .insertion
  have h7 := h Nat Bool g ⟨_, h1⟩ enough .insertion c h3 sets h5
  rw [h6] at h7
  have h8 : 4 * n + 3 + 1 = 4 * (n + 1) := by omega
  rw [h8, Nat.mul_pow, ← Nat.mul_assoc] at h7
  omega

/-! ## An upper bound -/

/-- The strings of at most the given length. -/
def stringsUpTo {α : Type} (xs : List α) : Nat → List (List α)
  | 0 => [[]]
  | n + 1 => [] :: xs.flatMap fun x => (stringsUpTo xs n).map (x :: ·)

theorem mem_stringsUpTo {α : Type} {xs : List α} : ∀ {n : Nat} {w : List α}, w.length ≤ n → (∀ x ∈ w, x ∈ xs) →
    w ∈ stringsUpTo xs n := by
  intro n
  induction n with
  | zero =>
    intro w h _
    have : w = [] := List.eq_nil_of_length_eq_zero (by omega)
    simp [stringsUpTo, this]
  | succ n ih =>
    intro w h hw
    cases w with
    | nil => simp [stringsUpTo]
    | cons x w =>
      refine List.mem_cons_of_mem _ (List.mem_flatMap.2 ⟨x, hw x (List.mem_cons_self ..), List.mem_map.2 ⟨w, ?_, rfl⟩⟩)
      exact ih (by simpa using h) fun y hy => hw y (List.mem_cons_of_mem _ hy)

theorem stringsUpTo_length {α : Type} (xs : List α) (n : Nat) :
    (stringsUpTo xs n).length ≤ (xs.length + 1) ^ n := by
  have hflat : ∀ (l : List α) (ws : List (List α)),
      (l.flatMap fun x => ws.map (x :: ·)).length = l.length * ws.length := by
    intro l ws
    induction l with
    | nil => simp
    | cons a l ih => simp only [List.flatMap_cons, List.length_append, List.length_map, ih, List.length_cons,
        Nat.add_mul, Nat.one_mul]; omega
  induction n with
  | zero => simp [stringsUpTo]
  | succ n ih =>
    have h1 : 0 < (xs.length + 1) ^ n := Nat.pow_pos (by omega)
    have h2 := Nat.mul_le_mul_left xs.length ih
    simp only [stringsUpTo, List.length_cons, hflat]
    rw [Nat.pow_succ, Nat.mul_add, Nat.mul_one, Nat.mul_comm _ xs.length]
    omega

/-- States, the last one first, in which a set can return only in the next state. -/
inductive Trail : List (CState V T) → Prop
  | one (s : CState V T) : Trail [s]
  | cons {s p : CState V T} {rest : List (CState V T)} : Trail (p :: rest) →
      (∀ q ∈ rest, sameItems q.items s.items = false) → Trail (s :: p :: rest)

theorem Trail.length : ∀ {n : Nat} {l : List (CState V T)} {sets : List (ItemSet V T)}, l.length ≤ n → Trail l →
    (∀ s ∈ l, ∃ J ∈ sets, ∀ p, p ∈ s.items ↔ p ∈ J) → l.length ≤ 2 * sets.length := by
  intro n
  induction n with
  | zero => intro l sets hn _ _; omega
  | succ n ih =>
    intro l sets hn h hs
    cases h with
    | one s =>
      obtain ⟨J, hJ, _⟩ := hs s (by simp)
      have := List.length_pos_of_mem hJ
      simp only [List.length_cons, List.length_nil]
      omega
    | @cons s p rest h hne =>
      obtain ⟨J, hJ, hsJ⟩ := hs s (by simp)
      have hpos := List.length_pos_of_mem hJ
      have hlen := List.length_erase_of_mem hJ
      have hrest : rest.length ≤ 2 * (sets.erase J).length := by
        cases h with
        | one => simp
        | @cons _ q rest h' _ =>
          refine ih (by simp only [List.length_cons] at hn ⊢; omega) h' fun q' hq' => ?_
          obtain ⟨J', h1, h2⟩ := hs q' (by simp [List.mem_cons.1 hq'])
          refine ⟨J', (List.mem_erase_of_ne ?_).2 h1, h2⟩
          rintro rfl
          have := hne q' hq'
          rw [sameItems_iff.2 fun p => (h2 p).trans (hsJ p).symm] at this
          cases this
      simp only [List.length_cons]
      omega

/-- C77, what holds: the number of states is at most exponential in the number of different item sets.  Missing: the
polynomial bound, which is false (`c77_false`). -/
theorem c77_bound_partial {g : Grammar V T} (hg : Built g) {fuel : Nat} {ord : HashOrder} {c : Cfsm V T}
    (hc : Cfsm.fromGrammar g ord fuel = .ok c) {sets : List (ItemSet V T)} (hsets : AllSets c sets)
    {symbols : List (Sym V T)} (hsym : ∀ v β, (v, β) ∈ g.rules → ∀ x ∈ β, x ∈ symbols) :
    c.states.length ≤ (symbols.length + 1) ^ (2 * sets.length) := by
  have ok := fromGrammar_ok hg.wellFormed hc
  have gr := fromGrammar_grown hc
  have key : ∀ (k : Nat) (s : CState V T), s ∈ c.states → s.id = k → ∃ γ rest, Reached c γ s ∧
      γ.length = rest.length ∧ (∀ x ∈ γ, x ∈ symbols) ∧ Trail (s :: rest) ∧
      (∀ q ∈ rest, q ∈ c.states ∧ q.id < s.id) := by
    intro k
    induction k using Nat.strongRecOn with
    | ind k ih =>
      intro s hs hk
      rcases ok.parent s hs with h0 | ⟨p, hp, hlt, x, hd⟩
      · exact ⟨[], [], .start hs h0, rfl, by simp, .one s, by simp⟩
      · obtain ⟨γ, rest, h1, h2, h3, h4, h5⟩ := ih p.id (by omega) p hp rfl
        refine ⟨γ ++ [x], p :: rest, .step h1 hd hs rfl, by simp [h2], ?_, .cons h4 ?_, ?_⟩
        · intro y hy
          rcases List.mem_append.1 hy with hy | hy
          · exact h3 y hy
          · rw [List.mem_singleton.1 hy]
            obtain ⟨⟨h, i⟩, hi, hx⟩ := (ok.read p hp x).1 (List.mem_map.2 ⟨_, hd, rfl⟩)
            refine hsym h i.body ((ok.sets p hp).ok _ hi).rule x ?_
            exact List.mem_of_getElem? hx
        · intro q hq
          exact gr.fresh p hp x s.id s.items hd hlt (List.mem_map.2 ⟨s, hs, rfl⟩) q (h5 q hq).1 (h5 q hq).2
        · intro q hq
          rcases List.mem_cons.1 hq with rfl | hq
          · exact ⟨hp, hlt⟩
          · have := h5 q hq
            exact ⟨this.1, by omega⟩
  have short : ∀ s ∈ c.states, ∃ γ, Reached c γ s ∧ γ ∈ stringsUpTo symbols (2 * sets.length) := by
    intro s hs
    obtain ⟨γ, rest, h1, h2, h3, h4, h5⟩ := key _ s hs rfl
    refine ⟨γ, h1, mem_stringsUpTo ?_ h3⟩
    have := h4.length (Nat.le_refl _) fun q hq => by
      rcases List.mem_cons.1 hq with rfl | hq
      · exact hsets q hs
      · exact hsets q (h5 q hq).1
    simp only [List.length_cons] at this
    omega
  -- different states have different strings
  have choice : ∀ l : List (CState V T), l.Nodup → (∀ s ∈ l, s ∈ c.states) → ∃ ws : List (List (Sym V T)),
      ws.length = l.length ∧ ws.Nodup ∧ ∀ w ∈ ws, w ∈ stringsUpTo symbols (2 * sets.length) ∧ ∃ s ∈ l, Reached c w s := by
    intro l
    induction l with
    | nil => exact fun _ _ => ⟨[], rfl, by simp, by simp⟩
    | cons s l ih =>
      intro hn hl
      obtain ⟨hs, hn⟩ := List.nodup_cons.1 hn
      obtain ⟨ws, h1, h2, h3⟩ := ih hn fun s hs => hl s (List.mem_cons_of_mem _ hs)
      obtain ⟨γ, h4, h5⟩ := short s (hl s (List.mem_cons_self ..))
      refine ⟨γ :: ws, by simp [h1], List.nodup_cons.2 ⟨fun hm => ?_, h2⟩, fun w hw => ?_⟩
      · obtain ⟨_, s', hs', h6⟩ := h3 γ hm
        have := ((c33_viable hg fuel ord c hc).2 γ).1 s s' h4 h6
        exact hs (this ▸ hs')
      · rcases List.mem_cons.1 hw with rfl | hw
        · exact ⟨h5, s, List.mem_cons_self .., h4⟩
        · obtain ⟨h6, s', h7, h8⟩ := h3 w hw
          exact ⟨h6, s', List.mem_cons_of_mem _ h7, h8⟩
  have hnodup : c.states.Nodup := by
    have : (c.states.map CState.id).Nodup := by
      rw [ok.ids]
      exact List.nodup_range
    exact List.Pairwise.of_map CState.id (fun a b h e => h (congrArg _ e)) this
  obtain ⟨ws, h1, h2, h3⟩ := choice c.states hnodup fun _ h => h
  rw [← h1]
  exact Nat.le_trans (nodup_length_le h2 fun w hw => (h3 w hw).1) (stringsUpTo_length _ _)

/-- The hypotheses are met by `S → a S | b`, whose automaton has a state twice. -/
example : Built rightRecursive ∧ Cfsm.fromGrammar rightRecursive .insertion 20 = .ok rightRecursiveCfsm ∧
    AllSets rightRecursiveCfsm (rightRecursiveCfsm.states.map CState.items) ∧
    ∀ v β, (v, β) ∈ rightRecursive.rules → ∀ x ∈ β, x ∈ [Sym.term "a", .var "S", .term "b"] := by
  refine ⟨rightRecursive_built, rightRecursive_cfsm, fun s hs => ⟨_, List.mem_map.2 ⟨s, hs, rfl⟩, fun _ => Iff.rfl⟩, ?_⟩
  intro v β h
  simp only [rightRecursive, List.mem_cons, List.not_mem_nil, or_false, Prod.mk.injEq] at h
  rcases h with ⟨_, rfl⟩ | ⟨_, rfl⟩ <;> simp

/-! ## Between two numbers of strings -/

/-- Different states can be given different strings along which they were made. -/
theorem grew_list {g : Grammar V T} {c : Cfsm V T} (ok : CfsmOk g c) : ∀ l : List (CState V T), l.Nodup →
    (∀ s ∈ l, s ∈ c.states) → ∃ ws : List (List (Sym V T)),
      ws.length = l.length ∧ ws.Nodup ∧ ∀ w ∈ ws, ∃ s ∈ l, Grew c w s := by
  intro l
  induction l with
  | nil => exact fun _ _ => ⟨[], rfl, by simp, by simp⟩
  | cons s l ih =>
    intro hn hl
    obtain ⟨hs, hn⟩ := List.nodup_cons.1 hn
    obtain ⟨ws, h1, h2, h3⟩ := ih hn fun s hs => hl s (List.mem_cons_of_mem _ hs)
    obtain ⟨γ, h4⟩ := ok.grew (hl s (List.mem_cons_self ..))
    refine ⟨γ :: ws, by simp [h1], List.nodup_cons.2 ⟨fun hm => ?_, h2⟩, fun w hw => ?_⟩
    · obtain ⟨s', hs', h6⟩ := h3 γ hm
      exact hs (h4.unique ok h6 ▸ hs')
    · rcases List.mem_cons.1 hw with rfl | hw
      · exact ⟨s, List.mem_cons_self .., h4⟩
      · obtain ⟨s', h7, h8⟩ := h3 w hw
        exact ⟨s', List.mem_cons_of_mem _ h7, h8⟩

/-- Different strings along which states were made belong to different states. -/
theorem grew_ids {g : Grammar V T} {c : Cfsm V T} (ok : CfsmOk g c) {every : List (Nat × ItemSet V T)}
    (gr : Grown c.states every) : ∀ ws : List (List (Sym V T)), ws.Nodup → (∀ w ∈ ws, ∃ s, Grew c w s) →
      ∃ ids : List Nat, ids.length = ws.length ∧ ids.Nodup ∧ ∀ d ∈ ids, ∃ w ∈ ws, ∃ s, Grew c w s ∧ s.id = d := by
  intro ws
  induction ws with
  | nil => exact fun _ _ => ⟨[], rfl, by simp, by simp⟩
  | cons w ws ih =>
    intro hn hw
    obtain ⟨h0, hn⟩ := List.nodup_cons.1 hn
    obtain ⟨ids, h1, h2, h3⟩ := ih hn fun w h => hw w (List.mem_cons_of_mem _ h)
    obtain ⟨s, hs⟩ := hw w (List.mem_cons_self ..)
    refine ⟨s.id :: ids, by simp [h1], List.nodup_cons.2 ⟨fun hm => ?_, h2⟩, fun d hd => ?_⟩
    · obtain ⟨w', hw', s', hs', hd⟩ := h3 _ hm
      obtain rfl := ok.eq_of_id hs'.mem hs.mem hd
      exact h0 (hs.string ok gr hs' ▸ hw')
    · rcases List.mem_cons.1 hd with rfl | hd
      · exact ⟨w, List.mem_cons_self .., s, hs, rfl⟩
      · obtain ⟨w', hw', h⟩ := h3 d hd
        exact ⟨w', List.mem_cons_of_mem _ hw', h⟩

/-- C77, how many states there are: in every iteration order at least as many as there are shortest strings into the
item sets, and at most as many as there are strings into the item sets that are at most one symbol longer than the
shortest.  Missing: the polynomial bound, which is false (`c77_false`). -/
theorem c77_between_partial {g : Grammar V T} (hg : Built g) {fuel : Nat} {ord : HashOrder} {c : Cfsm V T}
    (hc : Cfsm.fromGrammar g ord fuel = .ok c) :
    (∀ ws : List (List (Sym V T)), ws.Nodup → (∀ w ∈ ws, Shortest g w) → ws.length ≤ c.states.length) ∧
      ∀ ws : List (List (Sym V T)), (∀ w, NearlyShortest g w → w ∈ ws) → c.states.length ≤ ws.length := by
  have ok := fromGrammar_ok hg.wellFormed hc
  have gr := fromGrammar_grown hc
  constructor
  · intro ws hn hw
    obtain ⟨ids, h1, h2, h3⟩ := grew_ids ok gr ws hn fun w h => Grew.of_shortest ok gr rfl (hw w h)
    rw [← h1]
    have := nodup_length_le h2 (u := c.states.map CState.id) fun d hd => by
      obtain ⟨_, _, s, hs, rfl⟩ := h3 d hd
      exact List.mem_map.2 ⟨s, hs.mem, rfl⟩
    simpa using this
  · intro ws hw
    have hnodup : c.states.Nodup := by
      have : (c.states.map CState.id).Nodup := by
        rw [ok.ids]
        exact List.nodup_range
      exact List.Pairwise.of_map CState.id (fun a b h e => h (congrArg _ e)) this
    obtain ⟨vs, h1, h2, h3⟩ := grew_list ok c.states hnodup fun _ h => h
    rw [← h1]
    refine nodup_length_le h2 fun v hv => ?_
    obtain ⟨s, hs, h⟩ := h3 v hv
    refine hw v (h.nearly ok gr ?_)
    cases h with
    | start _ _ =>
      obtain ⟨β, hβ⟩ := hg.wellFormed.start
      exact ⟨_, .start hβ (fresh_iff.2 rfl)⟩
    | step h hx _ _ => exact ok.readable h.reached hx

/-- The hypotheses are met by `S → a S | b` in every part: `ε` and `a` are shortest strings, and every nearly shortest
string is one of the strings of at most three symbols. -/
example : Built rightRecursive ∧ Cfsm.fromGrammar rightRecursive .insertion 20 = .ok rightRecursiveCfsm ∧
    ([[], [.term "a"]] : List (List (Sym String String))).Nodup ∧ (∀ w ∈ [[], [Sym.term "a"]], Shortest rightRecursive w) ∧
    ∀ w, NearlyShortest rightRecursive w → w ∈ stringsUpTo [Sym.term "a", .var "S", .term "b"] 3 := by
  have ok := fromGrammar_ok rightRecursive_built.wellFormed rightRecursive_cfsm
  have g0 : Reached rightRecursiveCfsm [] rightRecursiveCfsm.states[0] := .start (by decide) rfl
  have g1 : Reached rightRecursiveCfsm [.term "a"] rightRecursiveCfsm.states[1] :=
    .step (γ := []) (d := 1) g0 (by decide) (by decide) rfl
  have g2 : Reached rightRecursiveCfsm [.term "b"] rightRecursiveCfsm.states[2] :=
    .step (γ := []) (d := 2) g0 (by decide) (by decide) rfl
  have g3 : Reached rightRecursiveCfsm [.term "a", .var "S"] rightRecursiveCfsm.states[3] :=
    .step (γ := [.term "a"]) (d := 3) g1 (by decide) (by decide) rfl
  have g4 : Reached rightRecursiveCfsm [.term "a", .term "a"] rightRecursiveCfsm.states[4] :=
    .step (γ := [.term "a"]) (d := 4) g1 (by decide) (by decide) rfl
  have g5 : Reached rightRecursiveCfsm [.term "a", .term "b"] rightRecursiveCfsm.states[5] :=
    .step (γ := [.term "a"]) (d := 5) g1 (by decide) (by decide) rfl
  have near : ∀ s ∈ rightRecursiveCfsm.states, ∃ δ, Reached rightRecursiveCfsm δ s ∧ δ.length ≤ 2 := by
    intro s hs
    have : rightRecursiveCfsm.states = [rightRecursiveCfsm.states[0], rightRecursiveCfsm.states[1],
      rightRecursiveCfsm.states[2], rightRecursiveCfsm.states[3], rightRecursiveCfsm.states[4],
      rightRecursiveCfsm.states[5]] := rfl
    rw [this] at hs
    simp only [List.mem_cons, List.not_mem_nil, or_false] at hs
    rcases hs with rfl | rfl | rfl | rfl | rfl | rfl
    · exact ⟨_, g0, by decide⟩
    · exact ⟨_, g1, by decide⟩
    · exact ⟨_, g2, by decide⟩
    · exact ⟨_, g3, by decide⟩
    · exact ⟨_, g4, by decide⟩
    · exact ⟨_, g5, by decide⟩
  refine ⟨rightRecursive_built, rightRecursive_cfsm, by decide, fun w hw => ?_, fun w hw => ?_⟩
  · simp only [List.mem_cons, List.not_mem_nil, or_false] at hw
    rcases hw with rfl | rfl
    · exact ⟨⟨("S", ⟨[.term "b"], 0⟩), (reached_viable ok g0 _).1 (by decide)⟩, fun _ _ => Nat.zero_le _⟩
    · refine ⟨⟨("S", ⟨[.term "b"], 0⟩), (reached_viable ok g1 _).1 (by decide)⟩, fun δ hδ => ?_⟩
      cases δ with
      | nil => exact absurd (((ok.same_iff g1 g0).2 hδ) ("S", ⟨[.term "a", .var "S"], 1⟩)) (by decide)
      | cons => simp
  · obtain ⟨p, hp⟩ := hw.1
    obtain ⟨s, hs⟩ := ok.exists_reached hp
    obtain ⟨δ, hδ, hlen⟩ := near s (reached_mem hs)
    have h1 := hw.2 δ ((ok.same_iff hs hδ).1 fun _ => Iff.rfl)
    refine mem_stringsUpTo (by omega) ?_
    clear hw hp h1 hδ hlen
    induction hs with
    | start _ _ => simp
    | @step γ q t x d hq hd _ _ ih =>
      intro y hy
      rcases List.mem_append.1 hy with hy | hy
      · exact ih y hy
      · rw [List.mem_singleton.1 hy]
        have : ∀ s ∈ rightRecursiveCfsm.states, ∀ e ∈ s.transitions, e.1 ∈ [Sym.term "a", .var "S", .term "b"] := by
          decide
        exact this q (reached_mem hq) _ hd

end Pango.Props
