import Verif.Proofs.PrintedParser
import Verif.Proofs.Table

/-!
# Tables with the same entries
-/

namespace Pango.Parse

open Pango Pango.Spec

variable {V T : Type}

/-! ## What the rows of a constructed table are like -/

/-- Keys of a row differ, and the variable of an accepting entry is the start variable. -/
structure RowsOk [TerminalEq T] (tbl : Table V T) : Prop where
  action : ∀ row ∈ tbl.action, row.Pairwise fun e e' => ¬ keyEq e.1 e'.1 = true
  accept : ∀ row ∈ tbl.action, ∀ k v n, (k, Action.accept v n) ∈ row → v = tbl.start
  goto : ∀ row ∈ tbl.goto, (row.map Prod.fst).Nodup

theorem mem_resizeTo {α : Type} {l : List (List α)} {n : Nat} {row : List α} (h : row ∈ resizeTo [] n l) :
    row ∈ l ∨ row = [] := by
  unfold resizeTo at h
  rw [List.mem_append, List.mem_replicate] at h
  exact h.imp_right And.right

theorem getD_resizeTo {α : Type} {l : List (List α)} {n m : Nat} {row : List α}
    (h : ((resizeTo [] n l)[m]?).getD [] = row) : row ∈ l ∨ row = [] := by
  rw [resizeTo_getD] at h
  cases e : l[m]? with
  | none => rw [e] at h; exact .inr h.symm
  | some r =>
    rw [e] at h
    exact .inl (h ▸ List.mem_of_getElem? e)

theorem rowGet_none [TerminalEq T] {row : ActionRow V T} {k : Option T} (h : rowGet row k = none) :
    ∀ e ∈ row, ¬ keyEq e.1 k = true := by
  induction row with
  | nil => simp
  | cons e row ih =>
    simp only [rowGet] at h
    split at h
    · cases h
    · rename_i hk
      intro e' he'
      rcases List.mem_cons.mp he' with rfl | he'
      · exact hk
      · exact ih h e' he'

theorem RowsOk.insertAction [TerminalEq T] {tbl : Table V T} (ok : RowsOk tbl) {state : Nat} {k : Option T}
    {a : Action V} {rows : List (ActionRow V T)} (h : Parse.insertAction tbl.action state k a = some rows)
    (ha : ∀ v n, a = .accept v n → v = tbl.start) : RowsOk { tbl with action := rows } := by
  unfold Parse.insertAction at h
  simp only at h
  generalize hrow : ((resizeTo [] (state + 1) tbl.action)[state]?).getD [] = row at h
  have hmem := getD_resizeTo hrow
  cases hget : rowGet row k with
  | some x => rw [hget] at h; cases h
  | none =>
    rw [hget] at h
    simp only [Option.some.injEq] at h
    subst h
    have hp : row.Pairwise fun e e' => ¬ keyEq e.1 e'.1 = true := by
      rcases hmem with h | rfl
      · exact ok.action _ h
      · exact List.Pairwise.nil
    have hacc : ∀ k v n, (k, Action.accept v n) ∈ row → v = tbl.start := by
      rcases hmem with h | rfl
      · exact ok.accept _ h
      · intro _ _ _ h; cases h
    refine ⟨fun r hr => ?_, fun r hr => ?_, ok.goto⟩
    · rcases List.mem_or_eq_of_mem_set hr with hr | rfl
      · rcases mem_resizeTo hr with hr | rfl
        · exact ok.action _ hr
        · exact List.Pairwise.nil
      · rw [List.pairwise_append]
        refine ⟨hp, List.pairwise_singleton .., fun e he e' he' => ?_⟩
        simp only [List.mem_singleton] at he'
        subst he'
        exact rowGet_none hget e he
    · rcases List.mem_or_eq_of_mem_set hr with hr | rfl
      · rcases mem_resizeTo hr with hr | rfl
        · exact ok.accept _ hr
        · intro _ _ _ h; cases h
      · intro k' v n hm
        rcases List.mem_append.mp hm with hm | hm
        · exact hacc _ _ _ hm
        · simp only [List.mem_singleton, Prod.mk.injEq] at hm
          exact ha v n hm.2.symm

variable [DecidableEq V]

theorem RowsOk.insertGoto [TerminalEq T] {tbl : Table V T} (ok : RowsOk tbl) {state : Nat} {v : V} {dest : Nat}
    {rows : List (List (V × Nat))} (h : Parse.insertGoto tbl.goto state v dest = .ok rows) :
    RowsOk { tbl with goto := rows } := by
  unfold Parse.insertGoto at h
  simp only at h
  generalize hrow : ((resizeTo [] (state + 1) tbl.goto)[state]?).getD [] = row at h
  have hn : (row.map Prod.fst).Nodup := by
    rcases getD_resizeTo hrow with h | rfl
    · exact ok.goto _ h
    · exact List.nodup_nil
  have key : rows = (resizeTo [] (state + 1) tbl.goto).set state (mapSet row v dest) := by
    cases hget : mapGet row v with
    | none => rw [hget] at h; cases h; rfl
    | some old =>
      rw [hget] at h
      simp only at h
      split at h <;> cases h
      rfl
  subst key
  refine ⟨ok.action, ok.accept, fun r hr => ?_⟩
  rcases List.mem_or_eq_of_mem_set hr with hr | rfl
  · rcases mem_resizeTo hr with hr | rfl
    · exact ok.goto _ hr
    · exact List.nodup_nil
  · exact mapSet_keys_nodup hn _ _

variable [DecidableEq T] [TerminalEq T]

theorem RowsOk.insertReduces {state : Nat} {head : V} {n : Nat} : ∀ {follow : List (Sym V T)} {tbl : Table V T}
    {rows : List (ActionRow V T)}, RowsOk tbl →
    Parse.insertReduces state (.reduce head n) follow tbl.action = .ok (some rows) →
    RowsOk { tbl with action := rows }
  | [], tbl, rows, ok, h => by
    simp only [Parse.insertReduces, Outcome.ok.injEq, Option.some.injEq] at h
    subst h
    exact ok
  | .term t :: follow, tbl, rows, ok, h => by
    simp only [Parse.insertReduces] at h
    cases hi : Parse.insertAction tbl.action state (some t) (.reduce head n) with
    | none => rw [hi] at h; cases h
    | some rows' =>
      rw [hi] at h
      exact RowsOk.insertReduces (tbl := { tbl with action := rows' })
        (ok.insertAction hi fun _ _ e => by cases e) h
  | .var _ :: _, _, _, _, h => by cases h
  | .eps :: follow, tbl, rows, ok, h => RowsOk.insertReduces (follow := follow) ok h

theorem RowsOk.insertItem {g : Grammar V T} {ord : HashOrder} {follow : List (V × List (Sym V T))} {s : CState V T}
    {head : V} {item : Item V T} {tbl tbl' : Table V T} (ok : RowsOk tbl) (hs : tbl.start = g.start)
    (h : Parse.insertItem g ord follow s head item tbl = .ok (some tbl')) : RowsOk tbl' ∧ tbl'.start = g.start := by
  unfold Parse.insertItem at h
  split at h
  · obtain ⟨dest, -, h₁⟩ := Outcome.bind_eq_ok.mp h
    simp only [Outcome.pure_eq, Outcome.ok.injEq, Option.map_eq_some_iff] at h₁
    obtain ⟨rows, h₂, rfl⟩ := h₁
    exact ⟨ok.insertAction h₂ (fun _ _ e => by cases e), hs⟩
  · obtain ⟨dest, -, h₁⟩ := Outcome.bind_eq_ok.mp h
    obtain ⟨rows, h₂, h₃⟩ := Outcome.bind_eq_ok.mp h₁
    cases h₃
    exact ⟨ok.insertGoto h₂, hs⟩
  · split at h
    · cases h
      exact ⟨ok, hs⟩
    · obtain ⟨r, h₁, h₂⟩ := Outcome.bind_eq_ok.mp h
      cases r with
      | none => cases h₂
      | some rows =>
        have ok' := ok.insertReduces h₁
        simp only at h₂
        split at h₂
        · rename_i hg
          simp only [Outcome.pure_eq, Outcome.ok.injEq, Option.map_eq_some_iff] at h₂
          obtain ⟨rows', h₃, rfl⟩ := h₂
          exact ⟨ok'.insertAction (tbl := { tbl with action := rows }) h₃ fun v n e => by
            cases e
            exact hg.trans hs.symm, hs⟩
        · cases h₂
          exact ⟨ok', hs⟩
  · cases h

theorem RowsOk.insertItems {g : Grammar V T} {ord : HashOrder} {follow : List (V × List (Sym V T))} {s : CState V T} :
    ∀ {items : ItemSet V T} {tbl tbl' : Table V T}, RowsOk tbl → tbl.start = g.start →
      Parse.insertItems g ord follow s items tbl = .ok (some tbl') → RowsOk tbl' ∧ tbl'.start = g.start
  | [], tbl, tbl', ok, hs, h => by
    simp only [Parse.insertItems, Outcome.ok.injEq, Option.some.injEq] at h
    exact h ▸ ⟨ok, hs⟩
  | (head, item) :: items, tbl, tbl', ok, hs, h => by
    simp only [Parse.insertItems] at h
    obtain ⟨r, h₁, h₂⟩ := Outcome.bind_eq_ok.mp h
    cases r with
    | none => cases h₂
    | some t =>
      obtain ⟨ok₁, hs₁⟩ := ok.insertItem hs h₁
      exact RowsOk.insertItems ok₁ hs₁ h₂

theorem RowsOk.insertStates {g : Grammar V T} {ord : HashOrder} {follow : List (V × List (Sym V T))} :
    ∀ {states : List (CState V T)} {tbl tbl' : Table V T}, RowsOk tbl → tbl.start = g.start →
      Parse.insertStates g ord follow states tbl = .ok (some tbl') → RowsOk tbl' ∧ tbl'.start = g.start
  | [], tbl, tbl', ok, hs, h => by
    simp only [Parse.insertStates, Outcome.ok.injEq, Option.some.injEq] at h
    exact h ▸ ⟨ok, hs⟩
  | s :: states, tbl, tbl', ok, hs, h => by
    simp only [Parse.insertStates] at h
    obtain ⟨r, h₁, h₂⟩ := Outcome.bind_eq_ok.mp h
    cases r with
    | none => cases h₂
    | some t =>
      obtain ⟨ok₁, hs₁⟩ := ok.insertItems hs h₁
      exact RowsOk.insertStates ok₁ hs₁ h₂

theorem slrNew_rowsOk {g : Grammar V T} {ord : HashOrder} {fuel : Nat} {tbl : Table V T}
    (h : slrNew g ord fuel = .ok tbl) : RowsOk tbl := by
  unfold slrNew at h
  obtain ⟨r, h₁, h₂⟩ := Outcome.bind_eq_ok.mp h
  cases r with
  | none => cases h₂
  | some t =>
    cases h₂
    unfold slrTable at h₁
    obtain ⟨c, -, h₃⟩ := Outcome.bind_eq_ok.mp h₁
    unfold newSlr at h₃
    obtain ⟨f, -, h₄⟩ := Outcome.bind_eq_ok.mp h₃
    exact (RowsOk.insertStates ⟨by simp, by simp, by simp⟩ rfl h₄).1

/-! ## Tables with the same entries -/

/-- The same entries. -/
structure SameRows (tbl tbl' : Table V T) : Prop where
  action : ∀ (i : Nat) (k : Option T), (tbl.action[i]?).map (rowGet · k) = (tbl'.action[i]?).map (rowGet · k)
  goto : ∀ (i : Nat) (v : V), (tbl.goto[i]?).map (mapGet · v) = (tbl'.goto[i]?).map (mapGet · v)

omit [DecidableEq V] [DecidableEq T] in
theorem rowGet_mem {row : ActionRow V T} {k : Option T} {a : Action V} (h : rowGet row k = some a) :
    ∃ k', (k', a) ∈ row ∧ keyEq k' k = true := by
  induction row with
  | nil => cases h
  | cons e row ih =>
    obtain ⟨k0, a0⟩ := e
    simp only [rowGet] at h
    split at h
    · rename_i hk
      cases h
      exact ⟨k0, by simp, hk⟩
    · obtain ⟨k', h₁, h₂⟩ := ih h
      exact ⟨k', by simp [h₁], h₂⟩

omit [DecidableEq V] [DecidableEq T] in
theorem rowGet_of_mem [LawfulTerminalEq T] {row : ActionRow V T}
    (hp : row.Pairwise fun e e' => ¬ keyEq e.1 e'.1 = true) {k k' : Option T} {a : Action V} (h : (k', a) ∈ row)
    (hk : keyEq k' k = true) : rowGet row k = some a := by
  induction row with
  | nil => cases h
  | cons e row ih =>
    obtain ⟨k0, a0⟩ := e
    rw [List.pairwise_cons] at hp
    simp only [rowGet]
    rcases List.mem_cons.mp h with h | h
    · cases h
      rw [if_pos hk]
    · rw [if_neg, ih hp.2 h]
      intro h0
      exact hp.1 _ h (keyEq_trans h0 (keyEq_symm hk))

omit [DecidableEq V] [DecidableEq T] in
theorem rowGet_perm [LawfulTerminalEq T] {row row' : ActionRow V T}
    (hp : row.Pairwise fun e e' => ¬ keyEq e.1 e'.1 = true) (hp' : row'.Pairwise fun e e' => ¬ keyEq e.1 e'.1 = true)
    (h : row.Perm row') (k : Option T) : rowGet row k = rowGet row' k := by
  apply Option.ext
  intro a
  constructor
  · intro e
    obtain ⟨k', h₁, h₂⟩ := rowGet_mem e
    exact rowGet_of_mem hp' (h.mem_iff.mp h₁) h₂
  · intro e
    obtain ⟨k', h₁, h₂⟩ := rowGet_mem e
    exact rowGet_of_mem hp (h.mem_iff.mpr h₁) h₂

omit [DecidableEq T] [TerminalEq T] in
theorem mapGet_perm {row row' : List (V × Nat)} (hn : (row.map Prod.fst).Nodup) (hn' : (row'.map Prod.fst).Nodup)
    (h : row.Perm row') (v : V) : mapGet row v = mapGet row' v := by
  apply Option.ext
  intro a
  exact ⟨fun e => mapGet_of_mem hn' (h.mem_iff.mp (mapGet_mem e)), fun e => mapGet_of_mem hn (h.mem_iff.mpr (mapGet_mem e))⟩

theorem rowsInOrder_perm {α : Type} {ord ord' : HashOrder} {which : Nat} {rows rows' : List (List α)}
    (h : rowsInOrder ord which rows = rowsInOrder ord' which rows') :
    rows.length = rows'.length ∧ ∀ (i : Nat) (r r' : List α), rows[i]? = some r → rows'[i]? = some r' → r.Perm r' := by
  have hl : ∀ (ord : HashOrder) (rows : List (List α)), (rowsInOrder ord which rows).length = rows.length := by
    intro ord rows
    simp [rowsInOrder]
  have hi : ∀ (ord : HashOrder) (rows : List (List α)) (i : Nat) (r : List α), rows[i]? = some r →
      (rowsInOrder ord which rows)[i]? = some (ord.shuffle [which, i] _ r) := by
    intro ord rows i r hr
    simp [rowsInOrder, hr]
  refine ⟨by rw [← hl ord, h, hl], fun i r r' hr hr' => ?_⟩
  have h₁ := hi ord _ _ _ hr
  rw [h, hi ord' _ _ _ hr'] at h₁
  have := Option.some.inj h₁
  exact (ord.perm _ _ _).symm.trans ((List.Perm.of_eq this.symm).trans (ord'.perm _ _ _))

theorem sameRows_of_text [LawfulTerminalEq T] {tbl tbl' : Table V T} (ok : RowsOk tbl) (ok' : RowsOk tbl')
    {ord ord' : HashOrder} (ha : rowsInOrder ord 0 tbl.action = rowsInOrder ord' 0 tbl'.action)
    (hg : rowsInOrder ord 1 tbl.goto = rowsInOrder ord' 1 tbl'.goto) : SameRows tbl tbl' := by
  constructor
  · intro i k
    obtain ⟨hl, hp⟩ := rowsInOrder_perm ha
    by_cases hi : i < tbl.action.length
    · have e := List.getElem?_eq_getElem hi
      have e' := List.getElem?_eq_getElem (hl ▸ hi)
      have := rowGet_perm (ok.action _ (List.mem_of_getElem? e)) (ok'.action _ (List.mem_of_getElem? e')) (hp i _ _ e e') k
      rw [e, e']
      simpa using this
    · rw [List.getElem?_eq_none (by omega), List.getElem?_eq_none (by omega)]
  · intro i v
    obtain ⟨hl, hp⟩ := rowsInOrder_perm hg
    by_cases hi : i < tbl.goto.length
    · have e := List.getElem?_eq_getElem hi
      have e' := List.getElem?_eq_getElem (hl ▸ hi)
      have := mapGet_perm (ok.goto _ (List.mem_of_getElem? e)) (ok'.goto _ (List.mem_of_getElem? e')) (hp i _ _ e e') v
      rw [e, e']
      simpa using this
    · rw [List.getElem?_eq_none (by omega), List.getElem?_eq_none (by omega)]

/-! ## The same runs -/

omit [DecidableEq T] in
theorem handleToken_rows {tbl tbl' : Table V T} (h : SameRows tbl tbl') (token : Option T)
    (stack : List (ParseNode V T)) (current : Nat) :
    handleToken tbl token stack current = handleToken tbl' token stack current := by
  have ha := h.action current token
  unfold handleToken
  cases e : tbl.action[current]? with
  | none =>
    rw [e] at ha
    cases e' : tbl'.action[current]? with
    | none => rfl
    | some r => rw [e'] at ha; cases ha
  | some r =>
    rw [e] at ha
    cases e' : tbl'.action[current]? with
    | none => rw [e'] at ha; cases ha
    | some r' =>
      rw [e'] at ha
      simp only [Option.map_some, Option.some.injEq] at ha
      simp only [Outcome.expect_some, Outcome.bind_ok, ha]
      split
      · rfl
      · rfl
      · rename_i v n _
        refine congrArg _ (funext fun p => ?_)
        cases p.2.head? with
        | none => rfl
        | some top =>
          simp only [Outcome.expect_some, Outcome.bind_ok]
          have hg := h.goto top.state v
          cases f : tbl.goto[top.state]? with
          | none =>
            rw [f] at hg
            cases f' : tbl'.goto[top.state]? with
            | none => rfl
            | some _ => rw [f'] at hg; cases hg
          | some _ =>
            rw [f] at hg
            cases f' : tbl'.goto[top.state]? with
            | none => rw [f'] at hg; cases hg
            | some _ =>
              rw [f'] at hg
              simp only [Option.map_some, Option.some.injEq] at hg
              simp only [Outcome.expect_some, Outcome.bind_ok, hg]
      · rfl

theorem parseEof_rows {tbl tbl' : Table V T} (h : SameRows tbl tbl') : ∀ (n : Nat) (stack : List (ParseNode V T))
    (current : Nat), parseEof tbl n stack current = parseEof tbl' n stack current
  | 0, _, _ => rfl
  | n + 1, stack, current => by
    unfold parseEof
    rw [handleToken_rows h]
    refine congrArg _ (funext fun r => ?_)
    cases r with
    | none => rfl
    | some r => simp only [parseEof_rows h n]

theorem parseLoop_rows {tbl tbl' : Table V T} (h : SameRows tbl tbl') (fin : InputEnd) : ∀ (n : Nat) (input : List T)
    (stack : List (ParseNode V T)) (current : Nat),
    parseLoop tbl fin n input stack current = parseLoop tbl' fin n input stack current
  | 0, _, _, _ => rfl
  | n + 1, [], stack, current => by
    simp only [parseLoop, parseEof_rows h]
  | n + 1, t :: input, stack, current => by
    unfold parseLoop
    rw [handleToken_rows h]
    refine congrArg _ (funext fun r => ?_)
    cases r with
    | none => rfl
    | some r => simp only [parseLoop_rows h fin n]

/-- No entry accepts. -/
def NoAccept (tbl : Table V T) : Prop := ∀ row ∈ tbl.action, ∀ k v n, (k, Action.accept v n) ∉ row

/-- The same up to nodes. -/
inductive SameStates : Outcome (Option (Handled V T)) → Outcome (Option (Handled V T)) → Prop
  | panic : SameStates .panic .panic
  | diverge : SameStates .diverge .diverge
  | none : SameStates (.ok none) (.ok none)
  | some {h h' : Handled V T} (ha : h.accepted = false) (ha' : h'.accepted = false) (ht : h.taken = h'.taken)
      (hs : h.node.state = h'.node.state) (hst : h.stack.map ParseNode.state = h'.stack.map ParseNode.state) :
      SameStates (.ok (some h)) (.ok (some h'))

omit [DecidableEq T] in
theorem handleToken_alike {tbl : Table V T} (hn : NoAccept tbl) (token : Option T) {stack stack' : List (ParseNode V T)}
    (hst : stack.map ParseNode.state = stack'.map ParseNode.state) (current : Nat) :
    SameStates (handleToken tbl token stack current) (handleToken tbl token stack' current) := by
  unfold handleToken
  cases e : tbl.action[current]? with
  | none => exact .panic
  | some row =>
    simp only [Outcome.expect_some, Outcome.bind_ok]
    split
    · exact .none
    · cases token with
      | none => exact .panic
      | some t => exact .some rfl rfl rfl rfl hst
    · rename_i v n _
      have hl : stack.length = stack'.length := by simpa using congrArg List.length hst
      unfold drainStack
      by_cases hlen : n ≤ stack.length
      · rw [if_pos hlen, if_pos (hl ▸ hlen)]
        simp only [Outcome.bind_ok]
        have hd : (stack.drop n).map ParseNode.state = (stack'.drop n).map ParseNode.state := by
          rw [List.map_drop, List.map_drop, hst]
        generalize stack.drop n = d at hd
        generalize stack'.drop n = d' at hd
        cases d with
        | nil =>
          cases d' with
          | nil => exact .panic
          | cons _ _ => cases hd
        | cons x d =>
          cases d' with
          | nil => cases hd
          | cons x' d' =>
            have hx : x.state = x'.state := by simpa using congrArg List.head? hd
            simp only [List.head?_cons, Outcome.expect_some, Outcome.bind_ok, hx]
            cases tbl.goto[x'.state]? with
            | none => exact .panic
            | some r =>
              simp only [Outcome.expect_some, Outcome.bind_ok]
              cases mapGet r v with
              | none => exact .none
              | some dest => exact .some rfl rfl rfl rfl hd
      · rw [if_neg hlen, if_neg (hl ▸ hlen)]
        exact .panic
    · rename_i v n hr
      obtain ⟨k, hk, -⟩ := rowGet_mem hr
      exact absurd hk (hn _ (List.mem_of_getElem? e) _ _ _)

theorem parseEof_alike {tbl : Table V T} (hn : NoAccept tbl) : ∀ (n : Nat) {stack stack' : List (ParseNode V T)}
    (_ : stack.map ParseNode.state = stack'.map ParseNode.state) (current : Nat),
    parseEof tbl n stack current = parseEof tbl n stack' current
  | 0, _, _, _, _ => rfl
  | n + 1, stack, stack', hst, current => by
    unfold parseEof
    have := handleToken_alike hn none hst current
    revert this
    generalize handleToken tbl none stack current = a
    generalize handleToken tbl none stack' current = b
    intro h
    cases h with
    | panic => rfl
    | diverge => rfl
    | none => rfl
    | some ha ha' ht hs hst' =>
      simp only [Outcome.bind_ok, ha, ha', hs]
      exact parseEof_alike hn n (by simp [hs, hst']) _

theorem parseLoop_alike {tbl : Table V T} (hn : NoAccept tbl) (fin : InputEnd) : ∀ (n : Nat) (input : List T)
    {stack stack' : List (ParseNode V T)} (_ : stack.map ParseNode.state = stack'.map ParseNode.state) (current : Nat),
    parseLoop tbl fin n input stack current = parseLoop tbl fin n input stack' current
  | 0, _, _, _, _, _ => rfl
  | n + 1, [], stack, stack', hst, current => by
    simp only [parseLoop, parseEof_alike hn _ hst]
  | n + 1, t :: input, stack, stack', hst, current => by
    unfold parseLoop
    have := handleToken_alike hn (some t) hst current
    revert this
    generalize handleToken tbl (some t) stack current = a
    generalize handleToken tbl (some t) stack' current = b
    intro h
    cases h with
    | panic => rfl
    | diverge => rfl
    | none => rfl
    | some ha ha' ht hs hst' =>
      simp only [Outcome.bind_ok, ha, ha', hs, ht]
      exact parseLoop_alike hn fin n _ (by simp [hs, hst']) _

/-- Parsers with the same rows do the same. -/
theorem parseTokens_of_text [LawfulTerminalEq T] {tbl tbl' : Table V T} (ok : RowsOk tbl) (ok' : RowsOk tbl')
    {ord ord' : HashOrder} (ha : rowsInOrder ord 0 tbl.action = rowsInOrder ord' 0 tbl'.action)
    (hg : rowsInOrder ord 1 tbl.goto = rowsInOrder ord' 1 tbl'.goto) (fuel : Nat) (input : List T) (fin : InputEnd) :
    parseTokens tbl fuel input fin = parseTokens tbl' fuel input fin := by
  have hsame := sameRows_of_text ok ok' ha hg
  unfold parseTokens
  rw [parseLoop_rows hsame]
  by_cases hn : NoAccept tbl'
  · refine parseLoop_alike hn fin fuel input ?_ 0
    rfl
  · obtain ⟨row', hr', k, v, n, hm'⟩ : ∃ row ∈ tbl'.action, ∃ k v n, (k, Action.accept v n) ∈ row := by
      simpa [NoAccept] using hn
    obtain ⟨i, hi', hget'⟩ := List.mem_iff_getElem.mp hr'
    obtain ⟨hl, hp⟩ := rowsInOrder_perm ha
    have e := List.getElem?_eq_getElem (hl.symm ▸ hi' : i < tbl.action.length)
    have e' := List.getElem?_eq_getElem hi'
    rw [hget'] at e'
    have h₁ := ok'.accept _ hr' _ _ _ hm'
    have h₂ := ok.accept _ (List.mem_of_getElem? e) _ _ _ ((hp i _ _ e e').mem_iff.mpr hm')
    rw [← h₁, ← h₂]

end Pango.Parse
