import Verif.Proofs.Handle

/-!
# The steps of the parser

The stack of the parser spells a string of symbols along which the automaton reaches the current state.  What a
step does is described in terms of that string.
-/

namespace Pango.Parse

open Pango Pango.Spec

variable {V T : Type}

/-- The stack holds the states along the string `γ`, with the nodes `ns` (top first) above the first node `b`. -/
inductive StackOk (c : Cfsm V T) (b : Node V T) :
    List (Sym V T) → List (Node V T) → List (ParseNode V T) → CState V T → Prop
  | bottom {s : CState V T} : s ∈ c.states → s.id = 0 → StackOk c b [] [] [⟨b, s.id⟩] s
  | push {γ : List (Sym V T)} {ns : List (Node V T)} {st : List (ParseNode V T)} {s s' : CState V T} {x : Sym V T}
      {n : Node V T} : StackOk c b γ ns st s → (x, s'.id) ∈ s.transitions → s' ∈ c.states →
      StackOk c b (γ ++ [x]) (n :: ns) (⟨n, s'.id⟩ :: st) s'

section Stack

variable {c : Cfsm V T} {b : Node V T} {γ : List (Sym V T)} {ns : List (Node V T)} {st : List (ParseNode V T)}
  {s : CState V T}

theorem StackOk.reached (h : StackOk c b γ ns st s) : Reached c γ s := by
  induction h with
  | bottom h1 h2 => exact .start h1 h2
  | push _ h1 h2 ih => exact .step ih h1 h2 rfl

theorem StackOk.nodes (h : StackOk c b γ ns st s) : st.map ParseNode.node = ns ++ [b] := by
  induction h with
  | bottom _ _ => rfl
  | push _ _ _ ih => simp [ih]

theorem StackOk.length_nodes (h : StackOk c b γ ns st s) : ns.length = γ.length := by
  induction h with
  | bottom _ _ => rfl
  | push _ _ _ ih => simp [ih]

theorem StackOk.length_stack (h : StackOk c b γ ns st s) : st.length = γ.length + 1 := by
  rw [← h.length_nodes]
  simpa using congrArg List.length h.nodes

theorem StackOk.head (h : StackOk c b γ ns st s) : ∃ n, st.head? = some ⟨n, s.id⟩ := by
  cases h with
  | bottom _ _ => exact ⟨_, rfl⟩
  | push _ _ _ => exact ⟨_, rfl⟩

theorem StackOk.pop (h : StackOk c b γ ns st s) {γ' ρ : List (Sym V T)} (hγ : γ = γ' ++ ρ) :
    ∃ s', StackOk c b γ' (ns.drop ρ.length) (st.drop ρ.length) s' := by
  induction h generalizing ρ with
  | bottom h1 h2 =>
    obtain ⟨rfl, rfl⟩ := List.append_eq_nil_iff.1 hγ.symm
    exact ⟨_, .bottom h1 h2⟩
  | @push γ ns st s s' x n h1 h2 h3 ih =>
    rcases List.eq_nil_or_concat ρ with rfl | ⟨ρ', y, rfl⟩
    · rw [List.append_nil] at hγ
      subst hγ
      exact ⟨_, .push h1 h2 h3⟩
    · rw [List.concat_eq_append, ← List.append_assoc] at hγ
      obtain ⟨h4, _⟩ := List.append_inj' hγ rfl
      obtain ⟨s'', h5⟩ := ih h4
      refine ⟨s'', ?_⟩
      simpa using h5

end Stack

variable [DecidableEq V] [DecidableEq T] [TerminalEq T] {g : Grammar V T} {c : Cfsm V T} {entry : Prop}
  {tbl : Table V T}

/-- What a call of `handle_token` does. -/
inductive Does (g : Grammar V T) (c : Cfsm V T) (entry : Prop) (tbl : Table V T) (b : Node V T)
    (γ : List (Sym V T)) (ns : List (Node V T)) (st : List (ParseNode V T)) (s : CState V T) :
    Option T → Outcome (Option (Handled V T)) → Prop
  | noRow {k : Option T} : tbl.action.length ≤ s.id → (∀ p k', Needs g entry γ p k' → keyEq k' k = false) →
      Does g c entry tbl b γ ns st s k .panic
  | error {k : Option T} : s.id < tbl.action.length → (∀ p k', Needs g entry γ p k' → keyEq k' k = false) →
      Does g c entry tbl b γ ns st s k (.ok none)
  | shift {h : V} {i : Item V T} {t u : T} {s' : CState V T} : Viable g γ (h, i) → Reads i (.term t) →
      teq t u = true →
      StackOk c b (γ ++ [.term t]) (.mk (.term u) [] :: ns) (⟨.mk (.term u) [], s'.id⟩ :: st) s' →
      Does g c entry tbl b γ ns st s (some u) (.ok (some ⟨⟨.mk (.term u) [], s'.id⟩, false, st, true⟩))
  | reduce {h : V} {i : Item V T} {t u : T} {s' : CState V T} {γ' ρ : List (Sym V T)} {q : V × Item V T} :
      Viable g γ (h, i) → Complete i → Fol g t h → teq t u = true → γ = γ' ++ ρ → ρ.length = i.body.length →
      Viable g γ' q → Reads q.2 (.var h) →
      StackOk c b (γ' ++ [.var h]) (.mk (.var h) (ns.take i.body.length) :: ns.drop i.body.length)
        (⟨.mk (.var h) (ns.take i.body.length), s'.id⟩ :: st.drop i.body.length) s' →
      Does g c entry tbl b γ ns st s (some u)
        (.ok (some ⟨⟨.mk (.var h) (ns.take i.body.length), s'.id⟩, false, st.drop i.body.length, false⟩))
  | noGoto {h : V} {i : Item V T} {t u : T} {s' : CState V T} {γ' ρ : List (Sym V T)}
      {r : Outcome (Option (Handled V T))} :
      Viable g γ (h, i) → Complete i → Fol g t h → teq t u = true → γ = γ' ++ ρ → ρ.length = i.body.length →
      Reached c γ' s' → (∀ q, Viable g γ' q → ¬ Reads q.2 (.var h)) →
      (r = .ok none ∧ s'.id < tbl.goto.length ∨ r = .panic ∧ tbl.goto.length ≤ s'.id) →
      Does g c entry tbl b γ ns st s (some u) r
  | under {h : V} {i : Item V T} {t u : T} : Viable g γ (h, i) → Complete i → Fol g t h → teq t u = true →
      γ.length < i.body.length → Does g c entry tbl b γ ns st s (some u) .panic
  | accept {i : Item V T} : Viable g γ (g.start, i) → Complete i → entry → i.body.length ≤ γ.length + 1 →
      Does g c entry tbl b γ ns st s none
        (.ok (some ⟨⟨.mk (.var g.start) ((ns ++ [b]).take i.body.length), 0⟩, true, st.drop i.body.length, false⟩))
  | acceptUnder {i : Item V T} : Viable g γ (g.start, i) → Complete i → entry → γ.length + 1 < i.body.length →
      Does g c entry tbl b γ ns st s none .panic

theorem handle_does (ok : SlrOk g c entry tbl) {b : Node V T} {γ : List (Sym V T)} {ns : List (Node V T)}
    {st : List (ParseNode V T)} {s : CState V T} (h : StackOk c b γ ns st s) (k : Option T) :
    Does g c entry tbl b γ ns st s k (handleToken tbl k st s.id) := by
  have hr := h.reached
  have hs := reached_mem hr
  have hmem := reached_viable ok.cfsm hr
  have hnone : lookup tbl.action s.id k = none → ∀ p k', Needs g entry γ p k' → keyEq k' k = false := by
    intro h1 p k' h2
    obtain ⟨hp, a, ha⟩ := (needs_iff ok.cfsm hr).1 h2
    rw [Bool.eq_false_iff]
    intro h3
    have := (ok.action s hs k a).2 ⟨p, hp, k', ha, h3⟩
    rw [h1] at this
    cases this
  unfold handleToken
  cases hrow : tbl.action[s.id]? with
  | none =>
    simp only [Outcome.expect_none, Outcome.bind_panic]
    refine .noRow (List.getElem?_eq_none_iff.1 hrow) (hnone ?_)
    simp [lookup, hrow, rowGet]
  | some row =>
    have hlk : ∀ k', rowGet row k' = lookup tbl.action s.id k' := fun k' => by simp [lookup, hrow]
    simp only [Outcome.expect_some, Outcome.bind_ok, hlk]
    cases hact : lookup tbl.action s.id k with
    | none => exact .error (List.getElem?_eq_some_iff.1 hrow).1 (hnone hact)
    | some a =>
      obtain ⟨⟨hd, i⟩, hp, k', hask, hkey⟩ := (ok.action s hs k a).1 hact
      have hv := (hmem _).1 hp
      have hlen := h.length_stack
      have hlen' := h.length_nodes
      have htake : ∀ {n}, n ≤ γ.length → (st.take n).map ParseNode.node = ns.take n := by
        intro n hn
        rw [List.map_take, h.nodes, List.take_append_of_le_length (by omega)]
      have hlen2 : st.length = ns.length + 1 := by omega
      cases hask with
      | @shift _ _ t d h1 h2 =>
        cases k with
        | none => cases hkey
        | some u =>
          obtain ⟨s', h3, h4⟩ := ok.cfsm.dest s hs _ d h2
          have h5 := ok.cfsm.id_of_index h3
          simp only [Outcome.expect_some, Outcome.bind_ok]
          rw [← h5] at h2 ⊢
          exact .shift hv (reads_iff.2 h1) hkey (.push h h2 (List.mem_of_getElem? h3))
      | @reduce _ _ t h1 h2 =>
        cases k with
        | none => cases hkey
        | some u =>
          have hc := (complete_iff (Viable_ok hv)).2 h1
          simp only
          by_cases hle : i.body.length ≤ γ.length
          · obtain ⟨γ', hγ'⟩ : ∃ γ', γ' = γ.take (γ.length - i.body.length) := ⟨_, rfl⟩
            obtain ⟨ρ, hρ⟩ : ∃ ρ, ρ = γ.drop (γ.length - i.body.length) := ⟨_, rfl⟩
            have h3 : γ = γ' ++ ρ := by rw [hγ', hρ, List.take_append_drop]
            have h4 : ρ.length = i.body.length := by rw [hρ, List.length_drop]; omega
            obtain ⟨s', h5⟩ := h.pop h3
            rw [h4] at h5
            obtain ⟨n, h6⟩ := h5.head
            have hr' := h5.reached
            have hs' := reached_mem hr'
            have hgoto := ok.goto s' hs' hd
            rw [drainStack, if_pos (by omega)]
            simp only [Outcome.bind_ok, h6, Outcome.expect_some]
            have hno : gotoGet tbl.goto s'.id hd = none → ∀ q, Viable g γ' q → ¬ Reads q.2 (.var hd) := by
              intro h7 q hq hrd
              obtain ⟨s'', h8, _⟩ := ok.cfsm.next hr' hq (reads_iff.1 hrd)
              rw [(hgoto _).2 h8] at h7
              cases h7
            cases hg : tbl.goto[s'.id]? with
            | none =>
              simp only [Outcome.expect_none, Outcome.bind_panic]
              refine .noGoto hv hc h2 hkey h3 h4 hr' (hno ?_) (.inr ⟨rfl, List.getElem?_eq_none_iff.1 hg⟩)
              simp [gotoGet, hg, mapGet]
            | some grow =>
              have hgg : mapGet grow hd = gotoGet tbl.goto s'.id hd := by simp [gotoGet, hg]
              simp only [Outcome.expect_some, Outcome.bind_ok, hgg, htake hle]
              cases hd' : gotoGet tbl.goto s'.id hd with
              | none => exact .noGoto hv hc h2 hkey h3 h4 hr' (hno hd') (.inl ⟨rfl, (List.getElem?_eq_some_iff.1 hg).1⟩)
              | some d =>
                have h7 := (hgoto d).1 hd'
                obtain ⟨q, hq, hq'⟩ := (ok.cfsm.read s' hs' _).1 (List.mem_map.2 ⟨_, h7, rfl⟩)
                obtain ⟨s'', h8, _⟩ := ok.cfsm.dest s' hs' _ d h7
                have h9 := ok.cfsm.id_of_index h8
                simp only
                rw [← h9] at h7 ⊢
                exact .reduce hv hc h2 hkey h3 h4 ((reached_viable ok.cfsm hr' q).1 hq) (reads_iff.2 hq')
                  (.push h5 h7 (List.mem_of_getElem? h8))
          · by_cases hle' : i.body.length ≤ st.length
            · rw [drainStack, if_pos hle']
              have : st.drop i.body.length = [] := List.drop_eq_nil_iff.2 (by omega)
              simp only [Outcome.bind_ok, this, List.head?_nil, Outcome.expect_none, Outcome.bind_panic]
              exact .under hv hc h2 hkey (by omega)
            · rw [drainStack, if_neg hle']
              exact .under hv hc h2 hkey (by omega)
      | @accept _ h1 h2 =>
        cases k with
        | some u => cases hkey
        | none =>
          have hc := (complete_iff (Viable_ok hv)).2 h1
          simp only
          by_cases hle : i.body.length ≤ st.length
          · rw [drainStack, if_pos hle]
            simp only [Outcome.bind_ok, List.map_take, h.nodes]
            exact .accept hv hc h2 (by omega)
          · rw [drainStack, if_neg hle]
            exact .acceptUnder hv hc h2 (by omega)

/-! ## Runs -/

/-- What the parser works on: the symbols and the nodes (top first) on the stack, and the rest of the input. -/
structure Conf (V T : Type) where
  syms : List (Sym V T)
  nodes : List (Node V T)
  input : List T

/-- One step of the parser. -/
inductive Move (g : Grammar V T) : Conf V T → Conf V T → Prop
  | shift {γ : List (Sym V T)} {ns : List (Node V T)} {h : V} {i : Item V T} {t u : T} {w : List T} :
      Viable g γ (h, i) → Reads i (.term t) → teq t u = true →
      Move g ⟨γ, ns, u :: w⟩ ⟨γ ++ [.term t], .mk (.term u) [] :: ns, w⟩
  | reduce {γ ρ : List (Sym V T)} {ns : List (Node V T)} {h : V} {i : Item V T} {t u : T} {w : List T}
      {q : V × Item V T} : Viable g (γ ++ ρ) (h, i) → Complete i → Fol g t h → teq t u = true →
      ρ.length = i.body.length → Viable g γ q → Reads q.2 (.var h) →
      Move g ⟨γ ++ ρ, ns, u :: w⟩
        ⟨γ ++ [.var h], .mk (.var h) (ns.take i.body.length) :: ns.drop i.body.length, u :: w⟩

/-- A number of steps of the parser. -/
inductive Moves (g : Grammar V T) : Nat → Conf V T → Conf V T → Prop
  | refl {x : Conf V T} : Moves g 0 x x
  | step {k : Nat} {x y z : Conf V T} : Move g x y → Moves g k y z → Moves g (k + 1) x z

omit [DecidableEq V] [DecidableEq T] in
theorem Moves.trans {k m : Nat} {x y z : Conf V T} (h : Moves g k x y) (h' : Moves g m y z) :
    Moves g (k + m) x z := by
  induction h with
  | refl => rw [Nat.zero_add]; exact h'
  | @step k _ _ _ h1 _ ih =>
    rw [Nat.add_right_comm]
    exact .step h1 (ih h')

omit [DecidableEq V] [DecidableEq T] in
theorem Move.moves {x y : Conf V T} (h : Move g x y) : Moves g 1 x y := .step h .refl

/-- What the parser returns when `handle_token` makes no further step. -/
inductive Returns : Outcome (Option (Handled V T)) → Outcome (Option (Node V T)) → Prop
  | error : Returns (.ok none) (.ok none)
  | panic : Returns .panic .panic
  | accept {n : ParseNode V T} {st : List (ParseNode V T)} {b : Bool} :
      Returns (.ok (some ⟨n, true, st, b⟩)) (.ok (some n.node))

/-- How the run of the parser ends. -/
inductive Ends (g : Grammar V T) (c : Cfsm V T) (entry : Prop) (tbl : Table V T) (b : Node V T) (fin : InputEnd)
    (γ : List (Sym V T)) (ns : List (Node V T)) (w : List T) (res : Outcome (Option (Node V T))) : Prop
  | last {st : List (ParseNode V T)} {s : CState V T} {r : Outcome (Option (Handled V T))} :
      StackOk c b γ ns st s → (w = [] → fin = .ok ()) → Does g c entry tbl b γ ns st s w.head? r → Returns r res →
      Ends g c entry tbl b fin γ ns w res
  | panic : w = [] → fin = .panic → res = .panic → Ends g c entry tbl b fin γ ns w res
  | diverge : w = [] → fin = .diverge → res = .diverge → Ends g c entry tbl b fin γ ns w res

/-- At the end of the input the run stops at once. -/
theorem parseEof_ends (ok : SlrOk g c entry tbl) {b : Node V T} {γ : List (Sym V T)} {ns : List (Node V T)}
    {st : List (ParseNode V T)} {s : CState V T} (h : StackOk c b γ ns st s) {n : Nat} :
    Ends g c entry tbl b (.ok ()) γ ns [] (parseEof tbl (n + 1) st s.id) := by
  have hd := handle_does ok h none
  have hd' := hd
  rw [parseEof]
  revert hd
  generalize handleToken tbl none st s.id = r at hd'
  intro hd
  cases hd with
  | noRow _ _ => exact .last h (fun _ => rfl) hd' .panic
  | error _ _ => exact .last h (fun _ => rfl) hd' .error
  | accept _ _ _ _ => exact .last h (fun _ => rfl) hd' .accept
  | acceptUnder _ _ _ _ => exact .last h (fun _ => rfl) hd' .panic

/-- Every run is a sequence of steps, which is either cut off or ends. -/
theorem parseLoop_runs (ok : SlrOk g c entry tbl) {b : Node V T} {fin : InputEnd} {n : Nat} {w : List T}
    {γ : List (Sym V T)} {ns : List (Node V T)} {st : List (ParseNode V T)} {s : CState V T}
    (h : StackOk c b γ ns st s) :
    ∃ k γ' ns' w', Moves g k ⟨γ, ns, w⟩ ⟨γ', ns', w'⟩ ∧
      ((k = n ∧ parseLoop tbl fin n w st s.id = .diverge) ∨
        k < n ∧ Ends g c entry tbl b fin γ' ns' w' (parseLoop tbl fin n w st s.id)) := by
  induction n generalizing w γ ns st s with
  | zero => exact ⟨0, γ, ns, w, .refl, .inl ⟨rfl, by rw [parseLoop]⟩⟩
  | succ n ih =>
    cases w with
    | nil =>
      refine ⟨0, γ, ns, [], .refl, .inr ⟨by omega, ?_⟩⟩
      simp only [parseLoop]
      cases fin with
      | ok _ => exact parseEof_ends ok h
      | panic => exact .panic rfl rfl rfl
      | diverge => exact .diverge rfl rfl rfl
    | cons u w =>
      have hd := handle_does ok h (some u)
      have hd' := hd
      simp only [parseLoop]
      revert hd
      generalize handleToken tbl (some u) st s.id = r at hd'
      intro hd
      have hlast : ∀ {res}, Returns r res → Ends g c entry tbl b fin γ ns (u :: w) res := fun hr =>
        .last h (by simp) hd' hr
      cases hd with
      | noRow _ _ => exact ⟨0, γ, ns, _, .refl, .inr ⟨by omega, hlast .panic⟩⟩
      | error _ _ => exact ⟨0, γ, ns, _, .refl, .inr ⟨by omega, hlast .error⟩⟩
      | under _ _ _ _ _ => exact ⟨0, γ, ns, _, .refl, .inr ⟨by omega, hlast .panic⟩⟩
      | noGoto _ _ _ _ _ _ _ _ hr =>
        rcases hr with ⟨rfl, _⟩ | ⟨rfl, _⟩
        · exact ⟨0, γ, ns, _, .refl, .inr ⟨by omega, hlast .error⟩⟩
        · exact ⟨0, γ, ns, _, .refl, .inr ⟨by omega, hlast .panic⟩⟩
      | shift h1 h2 h3 h4 =>
        obtain ⟨k, γ', ns', w', h5, h6⟩ := ih (w := w) h4
        refine ⟨k + 1, γ', ns', w', .step (.shift h1 h2 h3) h5, ?_⟩
        rcases h6 with ⟨rfl, h6⟩ | ⟨h7, h6⟩
        · exact .inl ⟨rfl, h6⟩
        · exact .inr ⟨by omega, h6⟩
      | reduce h1 h2 h3 h4 h5 h6 h7 h8 h9 =>
        subst h5
        obtain ⟨k, γ', ns', w', h10, h11⟩ := ih (w := u :: w) h9
        refine ⟨k + 1, γ', ns', w', .step (.reduce h1 h2 h3 h4 h6 h7 h8) h10, ?_⟩
        rcases h11 with ⟨rfl, h6⟩ | ⟨h7, h6⟩
        · exact .inl ⟨rfl, h6⟩
        · exact .inr ⟨by omega, h6⟩

variable [LawfulTerminalEq T]

theorem SlrOk.needs_unique (ok : SlrOk g c entry tbl) {γ : List (Sym V T)} {p p' : V × Item V T} {k k' : Option T}
    (h : Needs g entry γ p k) (h' : Needs g entry γ p' k') (hk : keyEq k k' = true) : p = p' ∧ k = k' := by
  have hex : ∃ s, Reached c γ s := by
    have hv : Viable g γ p := by cases h <;> assumption
    exact ok.cfsm.exists_reached hv
  obtain ⟨s, hs⟩ := hex
  obtain ⟨h4, a, h5⟩ := (needs_iff ok.cfsm hs).1 h
  obtain ⟨h4', a', h5'⟩ := (needs_iff ok.cfsm hs).1 h'
  exact ok.unique s (reached_mem hs) p h4 p' h4' k k' a a' h5 h5' hk

omit [DecidableEq V] [DecidableEq T] [TerminalEq T] [LawfulTerminalEq T] in
theorem reads_not_complete {i : Item V T} {x : Sym V T} (h : Reads i x) : ¬ Complete i := by
  obtain ⟨pre, post, h1, h2⟩ := h
  intro h3
  unfold Complete at h3
  rw [h1, h2] at h3
  simp at h3

/-- A step that can be made is made by `handle_token`. -/
theorem Move.handles (ok : SlrOk g c entry tbl) {b : Node V T} {x y : Conf V T} (hm : Move g x y)
    {st : List (ParseNode V T)} {s : CState V T} (h : StackOk c b x.syms x.nodes st s) :
    ∃ u w r s', x.input = u :: w ∧ handleToken tbl (some u) st s.id = .ok (some r) ∧ r.accepted = false ∧
      r.node.state = s'.id ∧ StackOk c b y.syms y.nodes (r.node :: r.stack) s' ∧
      y.input = if r.taken then w else u :: w := by
  have hkey : ∀ {t t' u : T}, teq t u = true → teq t' u = true → keyEq (some t) (some t') = true :=
    fun h1 h2 => LawfulTerminalEq.trans _ _ _ h1 (LawfulTerminalEq.symm _ _ h2)
  cases hm with
  | @shift γ ns hd i t u w h1 h2 h3 =>
    have hneed : Needs g entry γ (hd, i) (some t) := .shift h1 h2
    have hdo := handle_does ok h (some u)
    generalize hh : handleToken tbl (some u) st s.id = r at hdo
    have hno : ¬ ∀ p k', Needs g entry γ p k' → keyEq k' (some u) = false := by
      intro h4
      have := h4 _ _ hneed
      simp only [keyEq] at this
      rw [h3] at this
      cases this
    have hred : ∀ {hd' i' t'}, Viable g γ (hd', i') → Complete i' → Fol g t' hd' → teq t' u = true → False := by
      intro hd' i' t' h4 h5 h6 h7
      have := (ok.needs_unique hneed (.reduce h4 h5 (inFollow_iff.2 h6)) (hkey h3 h7)).1
      cases this
      exact reads_not_complete h2 h5
    cases hdo with
    | noRow _ h4 => exact absurd h4 hno
    | error _ h4 => exact absurd h4 hno
    | under h4 h5 h6 h7 _ => exact (hred h4 h5 h6 h7).elim
    | noGoto h4 h5 h6 h7 _ _ _ _ _ => exact (hred h4 h5 h6 h7).elim
    | reduce h4 h5 h6 h7 _ _ _ _ _ => exact (hred h4 h5 h6 h7).elim
    | @shift _ _ t' _ s' h4 h5 h6 h7 =>
      have := (ok.needs_unique hneed (.shift h4 h5) (hkey h3 h6)).2
      cases this
      exact ⟨u, w, _, s', rfl, hh, rfl, rfl, h7, rfl⟩
  | @reduce γ ρ ns hd i t u w q h1 h2 h3 h3' h4 h5 h6 =>
    have hneed : Needs g entry (γ ++ ρ) (hd, i) (some t) := .reduce h1 h2 (inFollow_iff.2 h3)
    have hdo := handle_does ok h (some u)
    generalize hh : handleToken tbl (some u) st s.id = r at hdo
    have hno : ¬ ∀ p k', Needs g entry (γ ++ ρ) p k' → keyEq k' (some u) = false := by
      intro h4
      have := h4 _ _ hneed
      simp only [keyEq] at this
      rw [h3'] at this
      cases this
    have hred : ∀ {hd' i' t'}, Viable g (γ ++ ρ) (hd', i') → Complete i' → Fol g t' hd' → teq t' u = true →
        hd' = hd ∧ i' = i := by
      intro hd' i' t' h4 h5 h6 h7
      have := (ok.needs_unique hneed (.reduce h4 h5 (inFollow_iff.2 h6)) (hkey h3' h7)).1
      cases this
      exact ⟨rfl, rfl⟩
    cases hdo with
    | noRow _ h4 => exact absurd h4 hno
    | error _ h4 => exact absurd h4 hno
    | under h7 h8 h9 h10 h11 =>
      obtain ⟨rfl, rfl⟩ := hred h7 h8 h9 h10
      simp only [List.length_append] at h11
      omega
    | noGoto h7 h8 h9 h10 h11 h12 h13 h14 _ =>
      obtain ⟨rfl, rfl⟩ := hred h7 h8 h9 h10
      simp only at h11
      obtain ⟨rfl, _⟩ := List.append_inj' h11 (by omega)
      exact absurd h6 (h14 _ h5)
    | @shift _ _ t' _ s' h7 h8 h9 h10 =>
      have := (ok.needs_unique hneed (.shift h7 h8) (hkey h3' h9)).1
      cases this
      exact absurd h2 (reads_not_complete h8)
    | @reduce _ _ _ _ s' _ _ _ h7 h8 h9 h10 h11 h12 h13 h14 h15 =>
      obtain ⟨rfl, rfl⟩ := hred h7 h8 h9 h10
      simp only at h11
      obtain ⟨rfl, _⟩ := List.append_inj' h11 (by omega)
      exact ⟨u, w, _, s', rfl, hh, rfl, rfl, h15, rfl⟩

/-- A step that can be made is made. -/
theorem Move.does (ok : SlrOk g c entry tbl) {b : Node V T} {x y : Conf V T} (hm : Move g x y)
    {st : List (ParseNode V T)} {s : CState V T} (h : StackOk c b x.syms x.nodes st s) {fin : InputEnd} :
    ∃ st' s', StackOk c b y.syms y.nodes st' s' ∧
      ∀ n, parseLoop tbl fin (n + 1) x.input st s.id = parseLoop tbl fin n y.input st' s'.id := by
  obtain ⟨u, w, r, s', h1, h2, h3, h4, h5, h6⟩ := hm.handles ok h
  refine ⟨_, s', h5, fun n => ?_⟩
  rw [h1, h6, parseLoop, h2]
  simp [h3, h4]

theorem Moves.does (ok : SlrOk g c entry tbl) {b : Node V T} {k : Nat} {x y : Conf V T} (hm : Moves g k x y)
    {st : List (ParseNode V T)} {s : CState V T} (h : StackOk c b x.syms x.nodes st s) {fin : InputEnd} :
    ∃ st' s', StackOk c b y.syms y.nodes st' s' ∧
      ∀ n, parseLoop tbl fin (n + k) x.input st s.id = parseLoop tbl fin n y.input st' s'.id := by
  induction hm generalizing st s with
  | refl => exact ⟨st, s, h, fun n => rfl⟩
  | @step k x y z h1 _ ih =>
    obtain ⟨st1, s1, h2, h3⟩ := h1.does ok h (fin := fin)
    obtain ⟨st2, s2, h4, h5⟩ := ih h2
    exact ⟨st2, s2, h4, fun n => by rw [← Nat.add_assoc, h3, h5]⟩

/-- The steps do not leave a choice. -/
theorem Move.det (ok : SlrOk g c entry tbl) {x y y' : Conf V T} (h : Move g x y) (h' : Move g x y') : y = y' := by
  have hkey : ∀ {t t' u : T}, teq t u = true → teq t' u = true → keyEq (some t) (some t') = true :=
    fun h1 h2 => LawfulTerminalEq.trans _ _ _ h1 (LawfulTerminalEq.symm _ _ h2)
  cases h with
  | @shift γ ns hd i t u w h1 h2 h3 =>
    have hneed : Needs g entry γ (hd, i) (some t) := .shift h1 h2
    generalize hx : (⟨γ, ns, u :: w⟩ : Conf V T) = x at h'
    cases h' with
    | shift h4 h5 h6 =>
      cases hx
      cases (ok.needs_unique hneed (.shift h4 h5) (hkey h3 h6)).2
      rfl
    | reduce h4 h5 h6 h7 _ _ _ =>
      cases hx
      cases (ok.needs_unique hneed (.reduce h4 h5 (inFollow_iff.2 h6)) (hkey h3 h7)).1
      exact absurd h5 (reads_not_complete h2)
  | @reduce γ ρ ns hd i t u w q h1 h2 h3 h3' h4 h5 h6 =>
    have hneed : Needs g entry (γ ++ ρ) (hd, i) (some t) := .reduce h1 h2 (inFollow_iff.2 h3)
    generalize hx : (⟨γ ++ ρ, ns, u :: w⟩ : Conf V T) = x at h'
    cases h' with
    | shift h7 h8 h9 =>
      cases hx
      cases (ok.needs_unique hneed (.shift h7 h8) (hkey h3' h9)).1
      exact absurd h2 (reads_not_complete h8)
    | reduce h7 h8 h9 h10 h11 _ _ =>
      simp only [Conf.mk.injEq, List.cons.injEq] at hx
      obtain ⟨hx1, rfl, rfl, rfl⟩ := hx
      rw [← hx1] at h7
      cases (ok.needs_unique hneed (.reduce h7 h8 (inFollow_iff.2 h9)) (hkey h3' h10)).1
      obtain ⟨rfl, _⟩ := List.append_inj' hx1 (by omega)
      rfl

end Pango.Parse
