import Verif.Model.ParseWork
import Verif.Proofs.Work
import Verif.Proofs.LexFuel
import Verif.Proofs.LexParse
import Verif.Proofs.StackSize

/-!
# Facts about the work of parsing text
-/

namespace Pango.Parse

open Pango.Lex Pango.Fsm Pango.Spec

section Lexer

variable {σ K : Type} {m m' : Machine σ} {size : σ → Nat} {gs : Generators K}

theorem _root_.Pango.Lex.lexLoopT_le (h : m.Le m') {sim : σ} {kind : Option K} {it : InputIter} {t : Nat} :
    (lexLoopT m size gs sim kind it t).Le (lexLoopT m' size gs sim kind it t) := by
  induction hp : it.pending using Nat.strongRecOn generalizing sim kind it t with
  | ind k ih =>
    subst hp
    rw [lexLoopT, lexLoopT]
    split
    · rename_i c it' hn
      have hlt := InputIter.pending_next hn
      rcases h.canFeed sim c with h1 | h1
      · rw [h1]; exact .diverge
      rw [← h1]
      cases m.canFeed sim c with
      | panic => exact .refl
      | diverge => exact .refl
      | ok b =>
        cases b with
        | false => exact .refl
        | true =>
          simp only
          rcases h.feed sim c with h2 | h2
          · rw [h2]; exact .diverge
          rw [← h2]
          cases m.feed sim c with
          | panic => exact .refl
          | diverge => exact .refl
          | ok r =>
            obtain ⟨sim', acc⟩ := r
            cases acc with
            | false => exact ih _ hlt rfl
            | true =>
              simp only
              rw [← h.finals]
              cases m.finals sim' with
              | nil => exact .refl
              | cons f fs =>
                simp only
                cases gs.get f with
                | none => exact .refl
                | some gen => exact ih _ (by rw [InputIter.pending_accept]; exact hlt) rfl
    · rcases h.isAccepting sim with h1 | h1
      · rw [h1]; exact .diverge
      · rw [← h1]; exact .refl

theorem _root_.Pango.Lex.lexNextT_le (h : m.Le m') {it : InputIter} {t : Nat} :
    (lexNextT m size gs it t).Le (lexNextT m' size gs it t) :=
  Outcome.Le.bind h.start fun _ => lexLoopT_le h

theorem _root_.Pango.Lex.lexCallsT_le (h : m.Le m') {calls : Nat} : ∀ {it : InputIter} {t : Nat},
    (lexCallsT m size gs calls it t).Le (lexCallsT m' size gs calls it t) := by
  induction calls with
  | zero => exact .refl
  | succ calls ih => exact (lexNextT_le h).bind fun _ => ih.bind fun _ => .refl

theorem _root_.Pango.Lex.lexLoopT_shift {sim : σ} {kind : Option K} {it : InputIter} (s : Nat) {t : Nat} :
    lexLoopT m size gs sim kind it (s + t) =
      (lexLoopT m size gs sim kind it t >>= fun r => pure (r.1, s + r.2)) := by
  induction hp : it.pending using Nat.strongRecOn generalizing sim kind it t with
  | ind k ih =>
    subst hp
    rw [lexLoopT, lexLoopT]
    split
    · rename_i c it' hn
      have hlt := InputIter.pending_next hn
      cases m.canFeed sim c with
      | panic => rfl
      | diverge => rfl
      | ok b =>
        cases b with
        | false => cases kind <;> rfl
        | true =>
          simp only
          cases m.feed sim c with
          | panic => rfl
          | diverge => rfl
          | ok r =>
            obtain ⟨sim', acc⟩ := r
            cases acc with
            | false => simp only [Nat.add_assoc]; exact ih _ hlt rfl
            | true =>
              simp only
              cases m.finals sim' with
              | nil => rfl
              | cons f fs =>
                simp only
                cases gs.get f with
                | none => rfl
                | some gen =>
                  simp only [Nat.add_assoc]
                  exact ih _ (by rw [InputIter.pending_accept]; exact hlt) rfl
    · cases m.isAccepting sim with
      | panic => rfl
      | diverge => rfl
      | ok b => cases b <;> cases kind <;> rfl

theorem _root_.Pango.Lex.lexNextT_shift {it : InputIter} (s : Nat) {t : Nat} :
    lexNextT m size gs it (s + t) = (lexNextT m size gs it t >>= fun r => pure (r.1, s + r.2)) := by
  unfold lexNextT
  cases m.start with
  | panic => rfl
  | diverge => rfl
  | ok sim => simp only [Outcome.bind_ok, Nat.add_assoc]; exact lexLoopT_shift s

theorem _root_.Pango.Lex.lexCallsT_shift {calls : Nat} (s : Nat) : ∀ {it : InputIter} {t : Nat},
    lexCallsT m size gs calls it (s + t) = (lexCallsT m size gs calls it t >>= fun r => pure (r.1, s + r.2)) := by
  induction calls with
  | zero => intro it t; rfl
  | succ calls ih =>
    intro it t
    rw [lexCallsT, lexCallsT, lexNextT_shift]
    cases lexNextT m size gs it t with
    | panic => rfl
    | diverge => rfl
    | ok r =>
      obtain ⟨⟨a, it'⟩, t'⟩ := r
      simp only [Outcome.bind_ok, Outcome.pure_eq]
      rw [ih]
      cases lexCallsT m size gs calls it' t' with
      | panic => rfl
      | diverge => rfl
      | ok r => rfl

end Lexer

variable {σ V T : Type} [DecidableEq V] [TerminalEq T] {m m' : Machine σ} {size : σ → Nat} {gs : Generators T}
  {tbl : Table V T}

theorem handleTokenT_fst {token : Option T} {stack : List (ParseNode V T)} {current : Nat} :
    (handleTokenT tbl token stack current >>= fun r => pure r.1) = handleToken tbl token stack current := by
  unfold handleTokenT handleToken
  cases Outcome.expect (tbl.action[current]?) with
  | panic => rfl
  | diverge => rfl
  | ok row =>
    simp only [Outcome.bind_ok]
    cases rowGet row token with
    | none => rfl
    | some a =>
      cases a with
      | shift d => cases token <;> rfl
      | accept v n =>
        simp only
        cases drainStack stack n with
        | panic => rfl
        | diverge => rfl
        | ok r => rfl
      | reduce v n =>
        simp only
        cases drainStack stack n with
        | panic => rfl
        | diverge => rfl
        | ok r =>
          obtain ⟨cs, st⟩ := r
          simp only [Outcome.bind_ok]
          cases Outcome.expect st.head? with
          | panic => rfl
          | diverge => rfl
          | ok top =>
            simp only [Outcome.bind_ok]
            cases Outcome.expect (tbl.goto[top.state]?) with
            | panic => rfl
            | diverge => rfl
            | ok row =>
              simp only [Outcome.bind_ok]
              cases mapGet row v <;> rfl

theorem drainStack_length {stack st : List (ParseNode V T)} {n : Nat} {cs : List (Node V T)}
    (h : drainStack stack n = .ok (cs, st)) : cs.length + st.length = stack.length := by
  unfold drainStack at h
  split at h
  · simp only [Outcome.ok.injEq, Prod.mk.injEq] at h
    obtain ⟨rfl, rfl⟩ := h
    simp only [List.length_map, List.length_take, List.length_drop]
    omega
  · cases h

theorem handleTokenT_ok {token : Option T} {stack : List (ParseNode V T)} {current k : Nat}
    {r : Option (Handled V T)} (h : handleTokenT tbl token stack current = .ok (r, k)) :
    handleToken tbl token stack current = .ok r ∧ 1 ≤ k ∧ k ≤ 1 + stack.length ∧
      ∀ d, r = some d → k + d.stack.length = 1 + stack.length := by
  refine ⟨?_, ?_⟩
  · rw [← handleTokenT_fst, h]
    rfl
  · simp only [handleTokenT, Outcome.bind_eq_ok] at h
    obtain ⟨row, _, h⟩ := h
    split at h
    · cases h
      exact ⟨Nat.le_refl _, by omega, fun d hd => nomatch hd⟩
    · simp only [Outcome.bind_eq_ok] at h
      obtain ⟨t, _, h⟩ := h
      cases h
      exact ⟨Nat.le_refl _, by omega, fun d hd => by cases hd; rfl⟩
    · simp only [Outcome.bind_eq_ok] at h
      obtain ⟨⟨cs, st⟩, h1, top, _, row, _, h⟩ := h
      have := drainStack_length h1
      simp only at h
      split at h
      · cases h
        exact ⟨by omega, by omega, fun d hd => nomatch hd⟩
      · cases h
        exact ⟨by omega, by omega, fun d hd => by cases hd; simp only; omega⟩
    · simp only [Outcome.bind_eq_ok] at h
      obtain ⟨⟨cs, st⟩, h1, h⟩ := h
      have := drainStack_length h1
      simp only at h
      cases h
      exact ⟨by omega, by omega, fun d hd => by cases hd; simp only; omega⟩

theorem drainStack_nodes {stack st : List (ParseNode V T)} {n : Nat} {cs : List (Node V T)}
    (h : drainStack stack n = .ok (cs, st)) : nodesCount cs + stackNodes st = stackNodes stack := by
  unfold drainStack at h
  split at h
  · simp only [Outcome.ok.injEq, Prod.mk.injEq] at h
    obtain ⟨rfl, rfl⟩ := h
    unfold stackNodes
    rw [← nodesCount_append, ← List.map_append, List.take_append_drop]
  · cases h

/-- One more node is on the stack, and each node that has been taken from it is counted. -/
theorem handleTokenT_nodes {token : Option T} {stack : List (ParseNode V T)} {current k : Nat} {d : Handled V T}
    (h : handleTokenT tbl token stack current = .ok (some d, k)) :
    stackNodes (d.node :: d.stack) = stackNodes stack + 1 ∧ k + d.stack.length = 1 + stack.length := by
  refine ⟨?_, (handleTokenT_ok h).2.2.2 d rfl⟩
  simp only [handleTokenT, Outcome.bind_eq_ok] at h
  obtain ⟨row, _, h⟩ := h
  split at h
  · cases h
  · simp only [Outcome.bind_eq_ok] at h
    obtain ⟨t, _, h⟩ := h
    cases h
    simp only [stackNodes, List.map_cons, nodesCount, nodeCount]
    omega
  · simp only [Outcome.bind_eq_ok] at h
    obtain ⟨⟨cs, st⟩, h1, top, _, row, _, h⟩ := h
    have := drainStack_nodes h1
    simp only at h
    split at h
    · cases h
    · cases h
      simp only [stackNodes, List.map_cons, nodesCount, nodeCount] at this ⊢
      omega
  · simp only [Outcome.bind_eq_ok] at h
    obtain ⟨⟨cs, st⟩, h1, h⟩ := h
    have := drainStack_nodes h1
    simp only at h
    cases h
    simp only [stackNodes, List.map_cons, nodesCount, nodeCount] at this ⊢
    omega

/-- What the parser counts: two for each node, one of them when it is made and one when it is taken from the stack. -/
def Counted (stack : List (ParseNode V T)) (t t' : Nat) (n : Node V T) : Prop :=
  ∃ rest : List (ParseNode V T),
    t' + 2 * stackNodes stack + rest.length + 1 = t + 2 * nodeCount n + 2 * stackNodes rest + stack.length

theorem Counted.of_accepted {token : Option T} {stack : List (ParseNode V T)} {current k : Nat} {d : Handled V T}
    (h : handleTokenT tbl token stack current = .ok (some d, k)) (t : Nat) : Counted stack t (t + k) d.node.node := by
  obtain ⟨h1, h2⟩ := handleTokenT_nodes h
  simp only [stackNodes, List.map_cons, nodesCount] at h1
  refine ⟨d.stack, ?_⟩
  simp only [stackNodes]
  omega

theorem Counted.step {token : Option T} {stack : List (ParseNode V T)} {current k : Nat} {d : Handled V T}
    (h : handleTokenT tbl token stack current = .ok (some d, k)) {t t' : Nat} {n : Node V T}
    (hc : Counted (d.node :: d.stack) (t + k) t' n) : Counted stack t t' n := by
  obtain ⟨h1, h2⟩ := handleTokenT_nodes h
  obtain ⟨rest, hc⟩ := hc
  rw [h1, List.length_cons] at hc
  exact ⟨rest, by omega⟩

theorem parseEofT_counted {n : Nat} : ∀ {stack : List (ParseNode V T)} {current t t' : Nat} {x : Node V T},
    parseEofT tbl n stack current t = .ok (some x, t') → Counted stack t t' x := by
  induction n with
  | zero => intro _ _ _ _ _ h; cases h
  | succ n ih =>
    intro stack current t t' x h
    simp only [parseEofT, Outcome.bind_eq_ok] at h
    obtain ⟨⟨_ | d, k⟩, h1, h⟩ := h
    · cases h
    · simp only at h
      split at h
      · cases h
        exact .of_accepted h1 t
      · exact .step h1 (ih h)

theorem parseEofT_fst {n : Nat} : ∀ {stack : List (ParseNode V T)} {current t : Nat},
    (parseEofT tbl n stack current t >>= fun r => pure r.1) = parseEof tbl n stack current := by
  induction n with
  | zero => intros; rfl
  | succ n ih =>
    intro stack current t
    rw [parseEofT, parseEof, ← handleTokenT_fst]
    cases handleTokenT tbl none stack current with
    | panic => rfl
    | diverge => rfl
    | ok r =>
      obtain ⟨_ | d, k⟩ := r
      · rfl
      · simp only [Outcome.bind_ok, Outcome.pure_eq]
        split
        · rfl
        · exact ih

omit [TerminalEq T] in
theorem nextKindT_fst {next : Option T} {it : InputIter} {t : Nat} :
    (nextKindT m size gs next it t >>= fun r => pure r.1) = nextKind m gs next it := by
  cases next with
  | some a => rfl
  | none =>
    simp only [nextKindT, nextKind]
    rw [← lexNextT_fst (size := size) (t := t)]
    cases lexNextT m size gs it t <;> rfl

theorem lexParseLoopT_fst {n : Nat} : ∀ {next : Option T} {it : InputIter} {stack : List (ParseNode V T)} {current t : Nat},
    (lexParseLoopT m size gs tbl n next it stack current t >>= fun r => pure r.1) =
      lexParseLoop m gs tbl n next it stack current := by
  induction n with
  | zero => intros; rfl
  | succ n ih =>
    intro next it stack current t
    rw [lexParseLoopT, lexParseLoop, ← nextKindT_fst (size := size) (t := t)]
    cases nextKindT m size gs next it t with
    | panic => rfl
    | diverge => rfl
    | ok r =>
      obtain ⟨⟨_ | a, it'⟩, t'⟩ := r
      · exact parseEofT_fst
      · simp only [Outcome.bind_ok, Outcome.pure_eq]
        rw [← handleTokenT_fst]
        cases handleTokenT tbl (some a) stack current with
        | panic => rfl
        | diverge => rfl
        | ok r =>
          obtain ⟨_ | d, k⟩ := r
          · rfl
          · simp only [Outcome.bind_ok, Outcome.pure_eq]
            split
            · rfl
            · exact ih

theorem parseTextT_fst [Unicode] {l : Lexer T} {sim fuel : Nat} {input : List Char} :
    (parseTextT l tbl sim fuel input >>= fun r => pure r.1) = parseText l tbl sim fuel input := lexParseLoopT_fst

theorem parseEofT_le {n k : Nat} (hk : n ≤ k) {stack : List (ParseNode V T)} {current t : Nat} :
    (parseEofT tbl n stack current t).Le (parseEofT tbl k stack current t) := by
  induction n generalizing k stack current t with
  | zero => exact .diverge
  | succ n ih =>
    obtain ⟨k, rfl⟩ : ∃ j, k = j + 1 := ⟨k - 1, by omega⟩
    rw [parseEofT, parseEofT]
    refine Outcome.Le.bind .refl fun r => ?_
    obtain ⟨_ | d, j⟩ := r
    · exact .refl
    · simp only
      split
      · exact .refl
      · exact ih (by omega)

theorem lexParseLoopT_le (h : m.Le m') {n k : Nat} (hk : n ≤ k) {next : Option T} {it : InputIter}
    {stack : List (ParseNode V T)} {current t : Nat} :
    (lexParseLoopT m size gs tbl n next it stack current t).Le
      (lexParseLoopT m' size gs tbl k next it stack current t) := by
  induction n generalizing k next it stack current t with
  | zero => exact .diverge
  | succ n ih =>
    obtain ⟨k, rfl⟩ : ∃ j, k = j + 1 := ⟨k - 1, by omega⟩
    rw [lexParseLoopT, lexParseLoopT]
    have h1 : (nextKindT m size gs next it t).Le (nextKindT m' size gs next it t) := by
      unfold nextKindT
      cases next with
      | some t => exact .refl
      | none => exact (lexNextT_le h).bind fun _ => .refl
    refine h1.bind fun r => ?_
    obtain ⟨⟨_ | a, it⟩, t⟩ := r
    · exact parseEofT_le hk
    · refine Outcome.Le.bind .refl fun r => ?_
      obtain ⟨_ | d, j⟩ := r
      · exact .refl
      · simp only
        split
        · exact .refl
        · exact ih (by omega)

theorem parseTextT_le [Unicode] {l : Lexer T} {sim sim' n n' : Nat} (hs : sim ≤ sim') (hn : n ≤ n') {input : List Char} :
    (parseTextT l tbl sim n input).Le (parseTextT l tbl sim' n' input) :=
  lexParseLoopT_le (nfaMachine_le hs) hn

/-- Every node that is taken from the stack has been put there, so each iteration counts twice at most. -/
theorem parseEofT_work {n : Nat} : ∀ {stack : List (ParseNode V T)} {current t t' : Nat} {r : Option (Node V T)},
    parseEofT tbl n stack current t = .ok (r, t') → t < t' ∧ t' ≤ t + 2 * n + stack.length := by
  induction n with
  | zero => intro _ _ _ _ _ h; cases h
  | succ n ih =>
    intro stack current t t' r h
    simp only [parseEofT, Outcome.bind_eq_ok] at h
    obtain ⟨⟨x, k⟩, h1, h⟩ := h
    obtain ⟨_, g1, g2, g3⟩ := handleTokenT_ok h1
    cases x with
    | none => cases h; omega
    | some d =>
      have := g3 d rfl
      simp only at h
      split at h
      · cases h; omega
      · obtain ⟨e1, e2⟩ := ih h
        rw [List.length_cons] at e2
        omega

/-- The calls of the lexer that the parser makes: all of them but the last one return tokens. -/
theorem lexParseLoopT_work {n : Nat} : ∀ {next : Option T} {it : InputIter} {stack : List (ParseNode V T)}
    {current t t' : Nat} {r : Option (Node V T)}, lexParseLoopT m size gs tbl n next it stack current t = .ok (r, t') →
    ∃ (ts : List (Tok T)) (as : List (Option (Tok T))) (it' : InputIter) (w : Nat),
      (as = ts.map some ∨ as = ts.map some ++ [none]) ∧ (next = none → as ≠ []) ∧
      lexCallsT m size gs as.length it 0 = .ok ((as, it'), w) ∧ t + w < t' ∧
        t' ≤ t + w + 2 * n + stack.length ∧ ∀ x, r = some x → Counted stack (t + w) t' x := by
  induction n with
  | zero => intro _ _ _ _ _ _ _ h; cases h
  | succ n ih =>
    intro next it stack current t t' r h
    have go : ∀ {a : T} {it : InputIter} {t : Nat}, lexParseLoopT m size gs tbl (n + 1) (some a) it stack current t = .ok (r, t') →
        ∃ (ts : List (Tok T)) (as : List (Option (Tok T))) (it' : InputIter) (w : Nat),
          (as = ts.map some ∨ as = ts.map some ++ [none]) ∧
          lexCallsT m size gs as.length it 0 = .ok ((as, it'), w) ∧ t + w < t' ∧
            t' ≤ t + w + 2 * (n + 1) + stack.length ∧ ∀ x, r = some x → Counted stack (t + w) t' x := by
      intro a it t h
      simp only [lexParseLoopT, nextKindT, Outcome.bind_ok, Outcome.bind_eq_ok] at h
      obtain ⟨⟨x, k⟩, h1, h⟩ := h
      obtain ⟨_, g1, g2, g3⟩ := handleTokenT_ok h1
      cases x with
      | none => cases h; exact ⟨[], [], it, 0, .inl rfl, rfl, by omega, by omega, fun x hx => nomatch hx⟩
      | some d =>
        have := g3 d rfl
        simp only at h
        split at h
        · cases h
          refine ⟨[], [], it, 0, .inl rfl, rfl, by omega, by omega, fun x hx => ?_⟩
          cases hx
          exact .of_accepted h1 t
        · obtain ⟨ts, as, it', w, e1, _, e2, e3, e4, e5⟩ := ih h
          rw [List.length_cons] at e4
          refine ⟨ts, as, it', w, e1, e2, by omega, by omega, fun x hx => .step h1 ?_⟩
          rw [Nat.add_right_comm]
          exact e5 x hx
    cases next with
    | some a =>
      obtain ⟨ts, as, it', w, e1, e2⟩ := go h
      exact ⟨ts, as, it', w, e1, (fun h => nomatch h), e2⟩
    | none =>
      rw [lexParseLoopT, nextKindT] at h
      have hs := lexNextT_shift (m := m) (size := size) (gs := gs) (it := it) t (t := 0)
      rw [Nat.add_zero] at hs
      rw [hs] at h
      cases hn : lexNextT m size gs it 0 with
      | panic => rw [hn] at h; cases h
      | diverge => rw [hn] at h; cases h
      | ok x =>
        rw [hn] at h
        obtain ⟨⟨_ | a, it1⟩, w1⟩ := x
        · obtain ⟨e1, e2⟩ := parseEofT_work h
          refine ⟨[], [none], it1, w1, .inr rfl, by simp, ?_, e1, e2, fun x hx => parseEofT_counted (hx ▸ h)⟩
          simp only [List.length_singleton, lexCallsT, hn, Outcome.bind_ok, Outcome.pure_eq]
        · obtain ⟨ts, as, it', w, e1, e2, e3, e4, e5⟩ := go (a := a.kind) (it := it1) (t := t + w1) h
          refine ⟨a :: ts, some a :: as, it', w1 + w, ?_, by simp, ?_, by omega, by omega, fun x hx => Nat.add_assoc .. ▸ e5 x hx⟩
          · rcases e1 with rfl | rfl
            · exact .inl rfl
            · exact .inr rfl
          have hs := lexCallsT_shift (m := m) (size := size) (gs := gs) (calls := as.length) w1 (it := it1) (t := 0)
          rw [Nat.add_zero] at hs
          rw [List.length_cons, lexCallsT, hn, Outcome.bind_ok]
          simp only
          rw [hs, e2]
          rfl

/-- If the parser returns before it has all tokens, then it does not matter how they end. -/
theorem parseLoop_early {n : Nat} {fin : InputEnd} (hf : fin ≠ .ok ()) :
    ∀ {w : List T} {stack : List (ParseNode V T)} {current : Nat} {r : Option (Node V T)},
    parseLoop tbl fin n w stack current = .ok r →
    ∀ k, parseLoop tbl fin k w stack current = parseLoop tbl (.ok ()) k w stack current := by
  induction n with
  | zero => intro _ _ _ _ h; cases h
  | succ n ih =>
    intro w stack current r h k
    cases k with
    | zero => rfl
    | succ k =>
      cases w with
      | nil =>
        cases fin with
        | ok u => exact absurd rfl hf
        | panic => cases h
        | diverge => cases h
      | cons a w =>
        rw [parseLoop] at h
        rw [parseLoop, parseLoop]
        cases hh : handleToken tbl (some a) stack current with
        | panic => rfl
        | diverge => rfl
        | ok x =>
          rw [hh] at h
          cases x with
          | none => rfl
          | some d =>
            simp only [Outcome.bind_ok] at h ⊢
            split at h
            · rename_i ha
              rw [if_pos ha, if_pos ha]
            · rename_i ha
              rw [if_neg ha, if_neg ha]
              exact ih h k

end Pango.Parse
