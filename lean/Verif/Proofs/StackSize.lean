import Verif.Model.StackSize
import Verif.Spec.TreeSize
import Verif.Proofs.Parse

/-!
# The stacks of the parser

A reduction by a body of one symbol leaves the height of the stack as it is and replaces the state on top.  The state
depends only on the variable and on the state below, so there are at most as many in a row as there are variables, or
they repeat forever.  All other steps make `2 * rest + height` smaller.
-/

namespace Pango.Parse

open Pango Pango.Spec

/-! ## Following a partial function -/

/-- What comes after `k` steps. -/
def follows (f : Nat → Option Nat) : Nat → Nat → Option Nat
  | 0, s => some s
  | k + 1, s => (f s).bind (follows f k)

theorem follows_add {f : Nat → Option Nat} {j k s : Nat} :
    follows f (j + k) s = (follows f j s).bind (follows f k) := by
  induction j generalizing s with
  | zero => simp [follows]
  | succ j ih =>
    rw [Nat.add_right_comm]
    simp only [follows]
    cases f s with
    | none => rfl
    | some s' => exact ih

theorem follows_le {f : Nat → Option Nat} {j k s : Nat} (h : j ≤ k) (hk : follows f k s ≠ none) :
    follows f j s ≠ none := by
  obtain ⟨d, rfl⟩ := Nat.exists_eq_add_of_le h
  rw [follows_add] at hk
  intro hj
  simp [hj] at hk

theorem follows_period {f : Nat → Option Nat} {d s : Nat} (hd : 0 < d) (h : follows f d s = some s) (k : Nat) :
    follows f k s ≠ none := by
  induction k using Nat.strongRecOn with
  | ind k ih =>
    by_cases hk : k ≤ d
    · exact follows_le hk (by simp [h])
    · obtain ⟨e, rfl⟩ := Nat.exists_eq_add_of_le (Nat.le_of_not_le hk)
      rw [follows_add, h]
      exact ih e (by omega)

/-- The states after 1, …, `k` steps. -/
def visits (f : Nat → Option Nat) : Nat → Nat → List Nat
  | 0, _ => []
  | k + 1, s => match f s with
    | none => []
    | some s' => s' :: visits f k s'

theorem visits_length {f : Nat → Option Nat} {k s : Nat} (h : follows f k s ≠ none) : (visits f k s).length = k := by
  induction k generalizing s with
  | zero => rfl
  | succ k ih =>
    simp only [follows] at h
    simp only [visits]
    cases hf : f s with
    | none => simp [hf] at h
    | some s' =>
      simp only [hf, Option.bind_some] at h
      simp [ih h]

theorem mem_visits {f : Nat → Option Nat} {k s x : Nat} (h : x ∈ visits f k s) :
    ∃ j, 0 < j ∧ j ≤ k ∧ follows f j s = some x ∧ ∃ y, f y = some x := by
  induction k generalizing s with
  | zero => simp [visits] at h
  | succ k ih =>
    simp only [visits] at h
    cases hf : f s with
    | none => simp [hf] at h
    | some s' =>
      simp only [hf, List.mem_cons] at h
      rcases h with rfl | h
      · exact ⟨1, by omega, by omega, by simp [follows, hf], s, hf⟩
      · obtain ⟨j, h1, h2, h3, h4⟩ := ih h
        exact ⟨j + 1, by omega, by omega, by simp [follows, hf, h3], h4⟩

theorem visits_repeat {f : Nat → Option Nat} {k s : Nat} (h : ¬ (visits f k s).Nodup) :
    ∃ i x d, follows f i s = some x ∧ 0 < d ∧ follows f d x = some x := by
  induction k generalizing s with
  | zero => simp [visits] at h
  | succ k ih =>
    simp only [visits] at h
    cases hf : f s with
    | none => simp [hf] at h
    | some s' =>
      simp only [hf, List.nodup_cons] at h
      by_cases hm : s' ∈ visits f k s'
      · obtain ⟨j, h1, _, h3, _⟩ := mem_visits hm
        exact ⟨1, s', j, by simp [follows, hf], h1, h3⟩
      · obtain ⟨i, x, d, h1, h2, h3⟩ := ih fun hn => h ⟨hm, hn⟩
        exact ⟨i + 1, x, d, by simp [follows, hf, h1], h2, h3⟩

/-- More steps than values can only be made if the steps go on forever. -/
theorem follows_forever {f : Nat → Option Nat} {L : List Nat} (hL : ∀ s s', f s = some s' → s' ∈ L) {s : Nat}
    (h : follows f (L.length + 1) s ≠ none) (k : Nat) : follows f k s ≠ none := by
  have h1 : ¬ (visits f (L.length + 1) s).Nodup := by
    intro hn
    have h2 := nodup_length_le hn fun x hx => by
      obtain ⟨_, _, _, _, y, hy⟩ := mem_visits hx
      exact hL y x hy
    rw [visits_length h] at h2
    omega
  obtain ⟨i, x, d, h2, h3, h4⟩ := visits_repeat h1
  refine follows_le (k := i + k) (by omega) ?_
  rw [follows_add, h2]
  exact follows_period h3 h4 k

/-! ## Tables -/

variable {V T : Type} [DecidableEq V] [TerminalEq T]

/-- Reductions take something off the stack, make one of the given variables, and are made only in front of a token. -/
def Reducing (tbl : Table V T) (heads : List V) : Prop :=
  ∀ n k v a, lookup tbl.action n k = some (.reduce v a) → 0 < a ∧ v ∈ heads ∧ k ≠ none

/-- The tables of well-formed grammars are like that. -/
theorem slrNew_reducing [DecidableEq T] [LawfulTerminalEq T] {g : Grammar V T} (wf : WellFormed g) {ord : HashOrder}
    {fuel : Nat} {tbl : Table V T} (h : slrNew g ord fuel = .ok tbl) : Reducing tbl (g.rules.map Prod.fst) := by
  have h1 := (slrNew_mono (n' := fuel + tableFuel g) (by omega)).ok h
  obtain ⟨c, follow, _, ok, _, h3, h4, h5, h6, r, h7, _, h9⟩ :=
    slrTable_spec wf ord (fuel := fuel + tableFuel g) (by omega)
  have fo : FollowOk g follow := ⟨h3, h4, h5, h6⟩
  simp only [slrNew, h7, Outcome.bind_ok] at h1
  cases r with
  | none => simp at h1
  | some tbl' =>
    simp at h1
    subst h1
    intro n k v a hl
    obtain ⟨⟨n', k', a'⟩, he, _, hk, rfl⟩ := ((h9 tbl' rfl).action n k _).1 hl
    obtain ⟨s, hs, _, p, hp, hask⟩ := (mem_allDemands ok fo).1 he
    have hrule := ((ok.sets s hs).ok p hp).rule
    simp only at hask hk
    cases hask with
    | reduce hc _ =>
      refine ⟨List.length_pos_iff.2 (wf.nonempty _ _ hrule), List.mem_map.2 ⟨_, hrule, rfl⟩, ?_⟩
      rintro rfl
      simp [keyEq] at hk

/-- What a call of `handle_token` that is not an error does. -/
theorem handle_cases {tbl : Table V T} {k : Option T} {st : List (ParseNode V T)} {cur : Nat} {h : Handled V T}
    (hh : handleToken tbl k st cur = .ok (some h)) :
    (∃ t d, k = some t ∧ h = ⟨⟨.mk (.term t) [], d⟩, false, st, true⟩) ∨
    (∃ v a top d, lookup tbl.action cur k = some (.reduce v a) ∧ a ≤ st.length ∧ (st.drop a).head? = some top ∧
      gotoGet tbl.goto top.state v = some d ∧
      h = ⟨⟨.mk (.var v) ((st.take a).map ParseNode.node), d⟩, false, st.drop a, false⟩) ∨
    h.accepted = true := by
  unfold handleToken at hh
  cases hrow : tbl.action[cur]? with
  | none => simp [hrow] at hh
  | some row =>
    have hlk : rowGet row k = lookup tbl.action cur k := by simp [lookup, hrow]
    simp only [hrow, Outcome.expect_some, Outcome.bind_ok, hlk] at hh
    cases ha : lookup tbl.action cur k with
    | none => simp [ha] at hh
    | some a =>
      simp only [ha] at hh
      cases a with
      | shift d =>
        cases k with
        | none => simp at hh
        | some t =>
          simp at hh
          exact .inl ⟨t, d, rfl, hh.symm⟩
      | reduce v a =>
        right; left
        simp only [drainStack] at hh
        split at hh
        · rename_i hle
          simp only [Outcome.bind_ok] at hh
          cases htop : (st.drop a).head? with
          | none => simp [htop] at hh
          | some top =>
            simp only [htop, Outcome.expect_some, Outcome.bind_ok] at hh
            cases hg : tbl.goto[top.state]? with
            | none => simp [hg] at hh
            | some grow =>
              simp only [hg, Outcome.expect_some, Outcome.bind_ok] at hh
              cases hd : mapGet grow v with
              | none => simp [hd] at hh
              | some d =>
                simp [hd] at hh
                exact ⟨v, a, top, d, rfl, hle, htop, by simp [gotoGet, hg, hd], by simp [← hh]⟩
        · simp at hh
      | accept v a =>
        right; right
        simp only [drainStack] at hh
        split at hh
        · simp at hh
          rw [← hh]
        · simp at hh

theorem handle_reduce {tbl : Table V T} {k : Option T} {st : List (ParseNode V T)} {cur : Nat} {v : V} {a d : Nat}
    {top : ParseNode V T} (h1 : lookup tbl.action cur k = some (.reduce v a)) (h2 : a ≤ st.length)
    (h3 : (st.drop a).head? = some top) (h4 : gotoGet tbl.goto top.state v = some d) :
    handleToken tbl k st cur =
      .ok (some ⟨⟨.mk (.var v) ((st.take a).map ParseNode.node), d⟩, false, st.drop a, false⟩) := by
  unfold handleToken
  cases hrow : tbl.action[cur]? with
  | none => simp [lookup, hrow, rowGet] at h1
  | some row =>
    have hlk : rowGet row k = lookup tbl.action cur k := by simp [lookup, hrow]
    cases hg : tbl.goto[top.state]? with
    | none => simp [gotoGet, hg, mapGet] at h4
    | some grow =>
      have h5 : mapGet grow v = some d := by simpa [gotoGet, hg] using h4
      simp [hlk, h1, drainStack, h2, h3, hg, h5]

theorem handle_ne_diverge {tbl : Table V T} {k : Option T} {st : List (ParseNode V T)} {cur : Nat} :
    handleToken tbl k st cur ≠ .diverge := by
  unfold handleToken drainStack
  intro h
  cases hrow : tbl.action[cur]? with
  | none => simp [hrow] at h
  | some row =>
    simp only [hrow, Outcome.expect_some, Outcome.bind_ok] at h
    cases ha : rowGet row k with
    | none => simp [ha] at h
    | some a =>
      simp only [ha] at h
      cases a with
      | shift d => cases k <;> simp at h
      | reduce v a =>
        simp only at h
        split at h
        · simp only [Outcome.bind_ok] at h
          cases htop : (st.drop a).head? with
          | none => simp [htop] at h
          | some top =>
            simp only [htop, Outcome.expect_some, Outcome.bind_ok] at h
            cases hg : tbl.goto[top.state]? with
            | none => simp [hg] at h
            | some grow =>
              simp only [hg, Outcome.expect_some, Outcome.bind_ok] at h
              cases hd : mapGet grow v <;> simp [hd] at h
        · simp at h
      | accept v a =>
        simp only at h
        split at h <;> simp at h

/-! ## Reductions by one symbol -/

/-- The state after a reduction by a body of one symbol, if that is what the table demands. -/
def unitStep (tbl : Table V T) (u : T) (below : Nat) (s : Nat) : Option Nat :=
  match lookup tbl.action s (some u) with
  | some (.reduce v 1) => gotoGet tbl.goto below v
  | _ => none

theorem unitStep_some {tbl : Table V T} {u : T} {b s s' : Nat} (h : unitStep tbl u b s = some s') :
    ∃ v, lookup tbl.action s (some u) = some (.reduce v 1) ∧ gotoGet tbl.goto b v = some s' := by
  unfold unitStep at h
  split at h
  · rename_i v hv
    exact ⟨v, hv, h⟩
  · cases h

theorem unitStep_loop {tbl : Table V T} {fin : InputEnd} {u : T} {w : List T} {a p : ParseNode V T}
    {st : List (ParseNode V T)} {s s' : Nat} (h : unitStep tbl u p.state s = some s') :
    ∃ a', ∀ n, parseLoop tbl fin (n + 1) (u :: w) (a :: p :: st) s = parseLoop tbl fin n (u :: w) (a' :: p :: st) s' := by
  obtain ⟨v, h1, h2⟩ := unitStep_some h
  refine ⟨⟨.mk (.var v) [a.node], s'⟩, fun n => ?_⟩
  rw [parseLoop, handle_reduce (st := a :: p :: st) (top := p) h1 (by simp) (by simp) h2]
  simp

theorem loop_forever {tbl : Table V T} {fin : InputEnd} {u : T} {w : List T} {p : ParseNode V T}
    {st : List (ParseNode V T)} (n : Nat) {a : ParseNode V T} {s : Nat}
    (h : ∀ k, follows (unitStep tbl u p.state) k s ≠ none) :
    parseLoop tbl fin n (u :: w) (a :: p :: st) s = .diverge := by
  induction n generalizing a s with
  | zero => rw [parseLoop]
  | succ n ih =>
    cases hs : unitStep tbl u p.state s with
    | none => exact absurd (by simp [follows, hs]) (h 1)
    | some s' =>
      obtain ⟨a', ha⟩ := unitStep_loop (fin := fin) (w := w) (a := a) (st := st) hs
      rw [ha]
      exact ih fun k hk => h (k + 1) (by simp [follows, hs, hk])

theorem follows_unitStep {tbl : Table V T} {heads : List V} (hr : Reducing tbl heads) {u : T} {b s : Nat}
    (h : follows (unitStep tbl u b) (heads.length + 1) s ≠ none) (k : Nat) :
    follows (unitStep tbl u b) k s ≠ none := by
  refine follows_forever (L := heads.filterMap (gotoGet tbl.goto b)) ?_ (follows_le ?_ h) k
  · intro s s' hs
    obtain ⟨v, h1, h2⟩ := unitStep_some hs
    exact List.mem_filterMap.2 ⟨v, (hr _ _ _ _ h1).2.1, h2⟩
  · have := List.length_filterMap_le (gotoGet tbl.goto b) heads
    omega

/-! ## Iterations -/

/-- What an iteration of the loop over the tokens does: the run ends, it goes on with less to do, or the iteration is a
reduction by one symbol. -/
theorem loop_step {tbl : Table V T} {heads : List V} (hr : Reducing tbl heads) {fin : InputEnd} {u : T} {w : List T}
    {st : List (ParseNode V T)} {s : Nat} :
    (∃ r, r ≠ .diverge ∧ ∀ n, parseLoop tbl fin (n + 1) (u :: w) st s = r) ∨
    (∃ w' st' s', 2 * w'.length + st'.length < 2 * (w.length + 1) + st.length ∧
      ∀ n, parseLoop tbl fin (n + 1) (u :: w) st s = parseLoop tbl fin n w' st' s') ∨
    (∃ a p st' s', st = a :: p :: st' ∧ unitStep tbl u p.state s = some s') := by
  cases hh : handleToken tbl (some u) st s with
  | diverge => exact absurd hh handle_ne_diverge
  | panic => exact .inl ⟨.panic, by simp, fun n => by rw [parseLoop, hh]; rfl⟩
  | ok r =>
    cases r with
    | none => exact .inl ⟨.ok none, by simp, fun n => by rw [parseLoop, hh]; rfl⟩
    | some h =>
      rcases handle_cases hh with ⟨t, d, h1, rfl⟩ | ⟨v, a, top, d, h1, h2, h3, h4, rfl⟩ | h1
      · cases h1
        refine .inr (.inl ⟨w, ⟨.mk (.term u) [], d⟩ :: st, d, by simp; omega, fun n => ?_⟩)
        rw [parseLoop, hh]
        simp
      · by_cases ha : a = 1
        · subst ha
          refine .inr (.inr ?_)
          match st, h2, h3 with
          | b :: p :: st', _, h3 =>
            simp at h3
            subst h3
            exact ⟨b, p, st', d, rfl, by simp [unitStep, h1, h4]⟩
          | [b], _, h3 => simp at h3
        · have h5 := (hr _ _ _ _ h1).1
          refine .inr (.inl ⟨u :: w, ⟨.mk (.var v) ((st.take a).map ParseNode.node), d⟩ :: st.drop a, d, ?_,
            fun n => ?_⟩)
          · simp; omega
          · rw [parseLoop, hh]
            simp
      · exact .inl ⟨.ok (some h.node.node), by simp, fun n => by rw [parseLoop, hh]; simp [h1]⟩

theorem eof_ne_diverge {tbl : Table V T} {heads : List V} (hr : Reducing tbl heads) {n : Nat}
    {st : List (ParseNode V T)} {s : Nat} : parseEof tbl (n + 1) st s ≠ .diverge := by
  rw [parseEof]
  cases hh : handleToken tbl none st s with
  | diverge => exact absurd hh handle_ne_diverge
  | panic => simp
  | ok r =>
    cases r with
    | none => simp
    | some h =>
      rcases handle_cases hh with ⟨t, d, h1, _⟩ | ⟨v, a, top, d, h1, _⟩ | h1
      · cases h1
      · exact absurd rfl (hr _ _ _ _ h1).2.2
      · simp [h1]

/-- A run that has not ended after this many iterations never ends. -/
theorem loop_decided {tbl : Table V T} {heads : List V} (hr : Reducing tbl heads) {fin : InputEnd} (size : Nat) :
    ∀ {w : List T} {st : List (ParseNode V T)} {s n : Nat}, 2 * w.length + st.length ≤ size →
      size * (heads.length + 1) < n → parseLoop tbl fin n w st s = .diverge →
      ∀ n', parseLoop tbl fin n' w st s = .diverge := by
  induction size with
  | zero =>
    intro w st s n h1 h2 h3 n'
    have hw : w = [] := by cases w <;> simp at h1 ⊢
    subst hw
    cases n' with
    | zero => rw [parseLoop]
    | succ n' =>
      obtain ⟨n, rfl⟩ : ∃ k, n = k + 1 := ⟨n - 1, by omega⟩
      cases fin with
      | ok _ => exact absurd (by simpa only [parseLoop] using h3) (eof_ne_diverge hr)
      | panic => simp [parseLoop] at h3
      | diverge => simp only [parseLoop]
  | succ size ih =>
    intro w st s n h1 h2 h3 n'
    rw [Nat.add_mul] at h2
    cases w with
    | nil =>
      cases n' with
      | zero => rw [parseLoop]
      | succ n' =>
        obtain ⟨n, rfl⟩ : ∃ k, n = k + 1 := ⟨n - 1, by omega⟩
        cases fin with
        | ok _ => exact absurd (by simpa only [parseLoop] using h3) (eof_ne_diverge hr)
        | panic => simp [parseLoop] at h3
        | diverge => simp only [parseLoop]
    | cons u w =>
      simp only [List.length_cons] at h1
      -- a run of reductions by one symbol
      have hunit : ∀ (k : Nat) {a p : ParseNode V T} {st : List (ParseNode V T)} {s n : Nat},
          2 * (w.length + 1) + (st.length + 2) ≤ size + 1 → follows (unitStep tbl u p.state) k s = none →
          size * (heads.length + 1) + k < n → parseLoop tbl fin n (u :: w) (a :: p :: st) s = .diverge →
          ∀ n', parseLoop tbl fin n' (u :: w) (a :: p :: st) s = .diverge := by
        intro k
        induction k with
        | zero => intro a p st s n _ hk; simp [follows] at hk
        | succ k ihk =>
          intro a p st s n h1 hk h2 h3 n'
          obtain ⟨n, rfl⟩ : ∃ k, n = k + 1 := ⟨n - 1, by omega⟩
          cases n' with
          | zero => rw [parseLoop]
          | succ n' =>
            cases hs : unitStep tbl u p.state s with
            | some s' =>
              obtain ⟨a', ha⟩ := unitStep_loop (fin := fin) (w := w) (a := a) (st := st) hs
              rw [ha] at h3 ⊢
              exact ihk h1 (by simpa [follows, hs] using hk) (by omega) h3 n'
            | none =>
              rcases loop_step hr (fin := fin) (u := u) (w := w) (st := a :: p :: st) (s := s) with
                ⟨r, hne, hr'⟩ | ⟨w', st', s', hlt, hr'⟩ | ⟨a', p', st', s', he, hs'⟩
              · rw [hr'] at h3
                exact absurd h3 hne
              · rw [hr'] at h3 ⊢
                simp only [List.length_cons] at hlt
                exact ih (by omega) (by omega) h3 n'
              · cases he
                rw [hs] at hs'
                cases hs'
      rcases loop_step hr (fin := fin) (u := u) (w := w) (st := st) (s := s) with
        ⟨r, hne, hr'⟩ | ⟨w', st', s', hlt, hr'⟩ | ⟨a, p, st', s', rfl, hs⟩
      · obtain ⟨n, rfl⟩ : ∃ k, n = k + 1 := ⟨n - 1, by omega⟩
        rw [hr'] at h3
        exact absurd h3 hne
      · obtain ⟨n, rfl⟩ : ∃ k, n = k + 1 := ⟨n - 1, by omega⟩
        cases n' with
        | zero => rw [parseLoop]
        | succ n' =>
          rw [hr'] at h3 ⊢
          exact ih (by omega) (by omega) h3 n'
      · by_cases hk : follows (unitStep tbl u p.state) (heads.length + 1) s = none
        · exact hunit _ (by simpa using h1) hk (by omega) h3 n'
        · exact loop_forever n' (follows_unitStep hr hk)

/-! ## The stacks -/

omit [DecidableEq V] [TerminalEq T] in
theorem nodesCount_append {l l' : List (Node V T)} : nodesCount (l ++ l') = nodesCount l + nodesCount l' := by
  induction l with
  | nil => simp [nodesCount]
  | cons n l ih => simp only [List.cons_append, nodesCount, ih]; omega

/-- Every step adds a node. -/
theorem handle_nodes {tbl : Table V T} {k : Option T} {st : List (ParseNode V T)} {cur : Nat} {h : Handled V T}
    (hh : handleToken tbl k st cur = .ok (some h)) (ha : h.accepted ≠ true) :
    stackNodes (h.node :: h.stack) = stackNodes st + 1 := by
  rcases handle_cases hh with ⟨t, d, _, rfl⟩ | ⟨v, a, top, d, _, _, _, _, rfl⟩ | h1
  · simp only [stackNodes, List.map_cons, nodesCount, nodeCount]; omega
  · simp only [stackNodes, List.map_cons, nodesCount, nodeCount]
    conv => rhs; rw [← List.take_append_drop a st, List.map_append, nodesCount_append]
    omega
  · exact absurd h1 ha

/-- No step makes the stack and the rest of the input longer. -/
theorem handle_depth {tbl : Table V T} {heads : List V} (hr : Reducing tbl heads) {k : Option T}
    {st : List (ParseNode V T)} {cur : Nat} {h : Handled V T}
    (hh : handleToken tbl k st cur = .ok (some h)) (ha : h.accepted ≠ true) :
    h.stack.length + 1 ≤ st.length + (if h.taken then 1 else 0) := by
  rcases handle_cases hh with ⟨t, d, _, rfl⟩ | ⟨v, a, top, d, h1, h2, _, _, rfl⟩ | h1
  · simp
  · have := (hr _ _ _ _ h1).1
    simp; omega
  · exact absurd h1 ha

theorem eofStacks_nodes {tbl : Table V T} {n : Nat} :
    ∀ {st : List (ParseNode V T)} {s i : Nat} {stack}, (eofStacks tbl n st s)[i]? = some stack →
      stackNodes stack = stackNodes st + i := by
  induction n with
  | zero => intro st s i stack h; simp [eofStacks] at h
  | succ n ih =>
    intro st s i stack h
    rw [eofStacks] at h
    cases i with
    | zero => simp at h; simp [h]
    | succ i =>
      simp only [List.getElem?_cons_succ] at h
      split at h
      · rename_i r hh
        split at h
        · simp at h
        · rename_i ha
          have := ih h
          rw [handle_nodes hh ha] at this
          omega
      · simp at h

theorem loopStacks_nodes {tbl : Table V T} {fin : InputEnd} {n : Nat} :
    ∀ {w : List T} {st : List (ParseNode V T)} {s i : Nat} {rest stack},
      (loopStacks tbl fin n w st s)[i]? = some (rest, stack) → stackNodes stack = stackNodes st + i := by
  induction n with
  | zero => intro w st s i rest stack h; simp [loopStacks] at h
  | succ n ih =>
    intro w st s i rest stack h
    cases w with
    | nil =>
      have hone : [(([] : List T), st)][i]? = some (rest, stack) → stackNodes stack = stackNodes st + i := by
        intro h
        cases i with
        | zero => simp at h; simp [h]
        | succ i => simp at h
      cases fin with
      | ok _ =>
        simp [loopStacks] at h
        obtain ⟨h1, _⟩ := h
        exact eofStacks_nodes h1
      | panic => exact hone (by simpa only [loopStacks] using h)
      | diverge => exact hone (by simpa only [loopStacks] using h)
    | cons u w =>
      rw [loopStacks] at h
      cases i with
      | zero => simp at h; simp [h]
      | succ i =>
        simp only [List.getElem?_cons_succ] at h
        split at h
        · rename_i r hh
          split at h
          · simp at h
          · rename_i ha
            have := ih h
            rw [handle_nodes hh ha] at this
            omega
        · simp at h

theorem eofStacks_depth {tbl : Table V T} {heads : List V} (hr : Reducing tbl heads) {n : Nat} :
    ∀ {st : List (ParseNode V T)} {s : Nat} {stack}, stack ∈ eofStacks tbl n st s → stack.length ≤ st.length := by
  cases n with
  | zero => intro st s stack h; simp [eofStacks] at h
  | succ n =>
    intro st s stack h
    rw [eofStacks, List.mem_cons] at h
    rcases h with rfl | h
    · omega
    · split at h
      · rename_i r hh
        split at h
        · simp at h
        · rename_i ha
          rcases handle_cases hh with ⟨t, d, h1, _⟩ | ⟨v, a, top, d, h1, _⟩ | h1
          · cases h1
          · exact absurd rfl (hr _ _ _ _ h1).2.2
          · exact absurd h1 ha
      · simp at h

theorem loopStacks_depth {tbl : Table V T} {heads : List V} (hr : Reducing tbl heads) {fin : InputEnd} {n : Nat} :
    ∀ {w : List T} {st : List (ParseNode V T)} {s : Nat} {rest stack},
      (rest, stack) ∈ loopStacks tbl fin n w st s → stack.length + rest.length ≤ st.length + w.length := by
  induction n with
  | zero => intro w st s rest stack h; simp [loopStacks] at h
  | succ n ih =>
    intro w st s rest stack h
    cases w with
    | nil =>
      cases fin with
      | ok _ =>
        simp [loopStacks] at h
        obtain ⟨h1, rfl⟩ := h
        simpa using eofStacks_depth hr h1
      | panic => simp [loopStacks] at h; simp [h]
      | diverge => simp [loopStacks] at h; simp [h]
    | cons u w =>
      rw [loopStacks, List.mem_cons] at h
      rcases h with h | h
      · cases h; omega
      · split at h
        · rename_i r hh
          split at h
          · simp at h
          · rename_i ha
            have h1 := ih h
            have h2 := handle_depth hr hh ha
            simp only [List.length_cons] at h1 ⊢
            cases ht : r.taken <;> simp [ht] at h1 h2 <;> omega
        · simp at h

theorem eofStacks_length {tbl : Table V T} {n : Nat} :
    ∀ {st : List (ParseNode V T)} {s : Nat}, parseEof tbl n st s ≠ .diverge →
      ∀ n', (eofStacks tbl n' st s).length ≤ n := by
  induction n with
  | zero => intro st s h; simp [parseEof] at h
  | succ n ih =>
    intro st s h n'
    cases n' with
    | zero => simp [eofStacks]
    | succ n' =>
      rw [parseEof] at h
      rw [eofStacks, List.length_cons]
      cases hh : handleToken tbl none st s with
      | diverge => simp
      | panic => simp
      | ok r =>
        cases r with
        | none => simp
        | some r =>
          simp only [hh, Outcome.bind_ok] at h
          simp only
          split
          · simp
          · rename_i ha
            simp only [ha] at h
            have := ih h n'
            omega

theorem loopStacks_length {tbl : Table V T} {fin : InputEnd} {n : Nat} :
    ∀ {w : List T} {st : List (ParseNode V T)} {s : Nat}, parseLoop tbl fin n w st s ≠ .diverge →
      ∀ n', (loopStacks tbl fin n' w st s).length ≤ n := by
  induction n with
  | zero => intro w st s h; simp [parseLoop] at h
  | succ n ih =>
    intro w st s h n'
    cases n' with
    | zero => simp [loopStacks]
    | succ n' =>
      cases w with
      | nil =>
        cases fin with
        | ok _ =>
          simp only [parseLoop] at h
          simpa [loopStacks] using eofStacks_length h (n' + 1)
        | panic => simp [loopStacks]
        | diverge => simp [loopStacks]
      | cons u w =>
        rw [parseLoop] at h
        rw [loopStacks, List.length_cons]
        cases hh : handleToken tbl (some u) st s with
        | diverge => simp
        | panic => simp
        | ok r =>
          cases r with
          | none => simp
          | some r =>
            simp only [hh, Outcome.bind_ok] at h
            simp only
            split
            · simp
            · rename_i ha
              simp only [ha] at h
              have := ih h n'
              omega

theorem eofStacks_endless {tbl : Table V T} {n : Nat} :
    ∀ {st : List (ParseNode V T)} {s : Nat}, parseEof tbl n st s = .diverge → (eofStacks tbl n st s).length = n := by
  induction n with
  | zero => intro st s h; simp [eofStacks]
  | succ n ih =>
    intro st s h
    rw [parseEof] at h
    rw [eofStacks, List.length_cons]
    cases hh : handleToken tbl none st s with
    | diverge => exact absurd hh handle_ne_diverge
    | panic => simp [hh] at h
    | ok r =>
      cases r with
      | none => simp [hh] at h
      | some r =>
        simp only [hh, Outcome.bind_ok] at h
        simp only
        split
        · rename_i ha
          simp [ha] at h
        · rename_i ha
          simp only [ha] at h
          rw [ih h]

theorem loopStacks_endless {tbl : Table V T} {n : Nat} :
    ∀ {w : List T} {st : List (ParseNode V T)} {s : Nat}, parseLoop tbl (.ok ()) n w st s = .diverge →
      (loopStacks tbl (.ok ()) n w st s).length = n := by
  induction n with
  | zero => intro w st s h; simp [loopStacks]
  | succ n ih =>
    intro w st s h
    cases w with
    | nil =>
      rw [parseLoop] at h
      rw [loopStacks]
      simpa using eofStacks_endless h
    | cons u w =>
      rw [parseLoop] at h
      rw [loopStacks, List.length_cons]
      cases hh : handleToken tbl (some u) st s with
      | diverge => exact absurd hh handle_ne_diverge
      | panic => simp [hh] at h
      | ok r =>
        cases r with
        | none => simp [hh] at h
        | some r =>
          simp only [hh, Outcome.bind_ok] at h
          simp only
          split
          · rename_i ha
            simp [ha] at h
          · rename_i ha
            simp only [ha] at h
            rw [ih h]

end Pango.Parse
