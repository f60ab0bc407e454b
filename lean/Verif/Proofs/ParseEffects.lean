import Verif.Model.ParseEffects

/-!
# A parser that reads from a lexer whose functions have effects
-/

namespace Pango.Parse

open Pango Pango.Lex Pango.Fsm

variable {σ V T W : Type} [DecidableEq V] [TerminalEq T] {tbl : Table V T}

/-- What the loop returns does not depend on what comes behind these tokens. -/
def LoopSettled (tbl : Table V T) (n : Nat) (ks : List T) (st : List (ParseNode V T)) (s : Nat)
    (res : Outcome (Option (Node V T))) : Prop :=
  ∀ more fin, parseLoop tbl fin n (ks ++ more) st s = res

/-- The loop reads all of these tokens and asks for another one. -/
def LoopAsks (tbl : Table V T) (n : Nat) (ks : List T) (st : List (ParseNode V T)) (s : Nat) : Prop :=
  parseLoop tbl .panic n ks st s = .panic ∧ parseLoop tbl .diverge n ks st s = .diverge

theorem loop_settled_or_asks (n : Nat) : ∀ (ks : List T) (st : List (ParseNode V T)) (s : Nat),
    (∃ res, LoopSettled tbl n ks st s res) ∨ LoopAsks tbl n ks st s := by
  induction n with
  | zero => exact fun ks st s => .inl ⟨.diverge, fun more fin => by rw [parseLoop]⟩
  | succ n ih =>
    intro ks st s
    cases ks with
    | nil => exact .inr ⟨by simp only [parseLoop], by simp only [parseLoop]⟩
    | cons t ks =>
      simp only [LoopSettled, LoopAsks, List.cons_append, parseLoop]
      cases hh : handleToken tbl (some t) st s with
      | diverge => exact .inl ⟨_, fun _ _ => rfl⟩
      | panic => exact .inl ⟨_, fun _ _ => rfl⟩
      | ok r =>
        cases r with
        | none => exact .inl ⟨_, fun _ _ => rfl⟩
        | some h =>
          simp only [Outcome.bind_ok]
          split
          · exact .inl ⟨_, fun _ _ => rfl⟩
          · cases ht : h.taken with
            | true => exact ih ks _ _
            | false => exact ih (t :: ks) _ _

theorem LoopAsks.not_settled {n : Nat} {ks : List T} {st : List (ParseNode V T)} {s : Nat}
    (h : LoopAsks tbl n ks st s) (res : Outcome (Option (Node V T))) : ¬ LoopSettled tbl n ks st s res := by
  intro hs
  have h1 := hs [] .panic
  have h2 := hs [] .diverge
  rw [List.append_nil] at h1 h2
  rw [h.1] at h1
  rw [h.2, ← h1] at h2
  cases h2

theorem LoopSettled.append {n : Nat} {ks : List T} {st : List (ParseNode V T)} {s : Nat}
    {res : Outcome (Option (Node V T))} (h : LoopSettled tbl n ks st s res) (more : List T) :
    LoopSettled tbl n (ks ++ more) st s res := by
  intro more' fin
  rw [List.append_assoc]
  exact h _ _

/-- The outcome of a run: the lexer is called as long as the loop asks. -/
inductive Runs (m : Machine σ) (gs : Generators (Lex.Action W T)) (tbl : Table V T) (n : Nat) (next : List T)
    (st : List (ParseNode V T)) (s : Nat) (it : InputIter) (world : W) : Outcome (Option (Node V T) × W) → Prop
  | settled {toks : List (Tok T)} {it' : InputIter} {world' : W} {res : Outcome (Option (Node V T))} :
      lexCallsE m gs toks.length it world = .ok ((toks.map some, it'), world') →
      (∀ k < toks.length, LoopAsks tbl n (next ++ (toks.take k).map Tok.kind) st s) →
      LoopSettled tbl n (next ++ toks.map Tok.kind) st s res →
      Runs m gs tbl n next st s it world (withWorld world' res)
  | ended {toks : List (Tok T)} {it' it'' : InputIter} {world' world'' : W} :
      lexCallsE m gs toks.length it world = .ok ((toks.map some, it'), world') →
      (∀ k < toks.length, LoopAsks tbl n (next ++ (toks.take k).map Tok.kind) st s) →
      LoopAsks tbl n (next ++ toks.map Tok.kind) st s →
      lexNextE m gs it' world' = .ok ((none, it''), world'') →
      Runs m gs tbl n next st s it world
        (withWorld world'' (parseLoop tbl (.ok ()) n (next ++ toks.map Tok.kind) st s))
  | panic {toks : List (Tok T)} {it' : InputIter} {world' : W} :
      lexCallsE m gs toks.length it world = .ok ((toks.map some, it'), world') →
      (∀ k < toks.length, LoopAsks tbl n (next ++ (toks.take k).map Tok.kind) st s) →
      LoopAsks tbl n (next ++ toks.map Tok.kind) st s → lexNextE m gs it' world' = .panic →
      Runs m gs tbl n next st s it world .panic
  | diverge {toks : List (Tok T)} {it' : InputIter} {world' : W} :
      lexCallsE m gs toks.length it world = .ok ((toks.map some, it'), world') →
      (∀ k < toks.length, LoopAsks tbl n (next ++ (toks.take k).map Tok.kind) st s) →
      LoopAsks tbl n (next ++ toks.map Tok.kind) st s → lexNextE m gs it' world' = .diverge →
      Runs m gs tbl n next st s it world .diverge

variable {m : Machine σ} {gs : Generators (Lex.Action W T)}

theorem Runs.congr {n n' : Nat} {next next' : List T} {st st' : List (ParseNode V T)} {s s' : Nat} {it : InputIter}
    {world : W} {o : Outcome (Option (Node V T) × W)} (h : Runs m gs tbl n next st s it world o)
    (he : ∀ more fin, parseLoop tbl fin n' (next' ++ more) st' s' = parseLoop tbl fin n (next ++ more) st s) :
    Runs m gs tbl n' next' st' s' it world o := by
  have ha : ∀ {ks}, LoopAsks tbl n (next ++ ks) st s → LoopAsks tbl n' (next' ++ ks) st' s' := fun h =>
    ⟨by rw [he]; exact h.1, by rw [he]; exact h.2⟩
  cases h with
  | settled h1 h2 h3 =>
    refine .settled h1 (fun k hk => ha (h2 k hk)) fun more fin => ?_
    have := h3 more fin
    rw [List.append_assoc] at this ⊢
    rw [he, this]
  | ended h1 h2 h3 h4 =>
    rw [← he]
    exact .ended h1 (fun k hk => ha (h2 k hk)) (ha h3) h4
  | panic h1 h2 h3 h4 => exact .panic h1 (fun k hk => ha (h2 k hk)) (ha h3) h4
  | diverge h1 h2 h3 h4 => exact .diverge h1 (fun k hk => ha (h2 k hk)) (ha h3) h4

theorem Runs.next {n : Nat} {st : List (ParseNode V T)} {s : Nat} {it it' : InputIter} {world world' : W} {t : Tok T}
    {o : Outcome (Option (Node V T) × W)} (ht : lexNextE m gs it world = .ok ((some t, it'), world'))
    (ha : LoopAsks tbl n [] st s) (h : Runs m gs tbl n [t.kind] st s it' world' o) :
    Runs m gs tbl n [] st s it world o := by
  have hc : ∀ {toks : List (Tok T)} {it'' world''},
      lexCallsE m gs toks.length it' world' = .ok ((toks.map some, it''), world'') →
      lexCallsE m gs (t :: toks).length it world = .ok (((t :: toks).map some, it''), world'') := by
    intro toks it'' world'' h
    simp [lexCallsE, ht, h]
  have hk : ∀ {toks : List (Tok T)},
      (∀ k < toks.length, LoopAsks tbl n ([t.kind] ++ (toks.take k).map Tok.kind) st s) →
      ∀ k < (t :: toks).length, LoopAsks tbl n ([] ++ ((t :: toks).take k).map Tok.kind) st s := by
    intro toks h k hk
    cases k with
    | zero => exact ha
    | succ k => exact h k (by simpa using hk)
  cases h with
  | settled h1 h2 h3 => exact .settled (hc h1) (hk h2) h3
  | ended h1 h2 h3 h4 => exact .ended (toks := t :: _) (hc h1) (hk h2) h3 h4
  | panic h1 h2 h3 h4 => exact .panic (hc h1) (hk h2) h3 h4
  | diverge h1 h2 h3 h4 => exact .diverge (hc h1) (hk h2) h3 h4

/-- A run of the parser on a lexer. -/
theorem lexParseLoopE_runs (n : Nat) : ∀ (next : Option T) (it : InputIter) (st : List (ParseNode V T)) (s : Nat)
    (world : W), Runs m gs tbl n next.toList st s it world (lexParseLoopE m gs tbl n next it st s world) := by
  induction n with
  | zero =>
    intro next it st s world
    exact .settled (toks := []) (res := .diverge) rfl (by simp) fun more fin => by rw [parseLoop]
  | succ n ih =>
    -- with a token at hand
    have hsome : ∀ (t : T) (it : InputIter) (st : List (ParseNode V T)) (s : Nat) (world : W),
        Runs m gs tbl (n + 1) [t] st s it world (lexParseLoopE m gs tbl (n + 1) (some t) it st s world) := by
      intro t it st s world
      simp only [lexParseLoopE, nextKindE, Outcome.bind_ok]
      have hend : ∀ {res : Outcome (Option (Node V T))}, (∀ more fin, parseLoop tbl fin (n + 1) (t :: more) st s = res) →
          Runs m gs tbl (n + 1) [t] st s it world (withWorld world res) := fun h =>
        .settled (toks := []) rfl (by simp) fun more fin => h _ _
      cases hh : handleToken tbl (some t) st s with
      | diverge => exact hend fun more fin => by rw [parseLoop, hh]; rfl
      | panic => exact hend fun more fin => by rw [parseLoop, hh]; rfl
      | ok r =>
        cases r with
        | none => exact hend (res := .ok none) fun more fin => by rw [parseLoop, hh]; rfl
        | some h =>
          simp only [Outcome.bind_ok]
          cases ha : h.accepted with
          | true => exact hend (res := .ok (some h.node.node)) fun more fin => by rw [parseLoop, hh]; simp [ha]
          | false =>
            refine (ih (if h.taken then none else some t) it (h.node :: h.stack) h.node.state world).congr ?_
            intro more fin
            rw [List.singleton_append, parseLoop, hh]
            cases ht : h.taken <;> simp [ha, ht]
    intro next it st s world
    cases next with
    | some t => exact hsome t it st s world
    | none =>
      have hask : LoopAsks tbl (n + 1) [] st s := ⟨by simp only [parseLoop], by simp only [parseLoop]⟩
      cases hn : lexNextE m gs it world with
      | panic =>
        have : lexParseLoopE m gs tbl (n + 1) none it st s world = .panic := by
          simp [lexParseLoopE, nextKindE, hn]
        rw [this]
        exact .panic (toks := []) rfl (by simp) hask hn
      | diverge =>
        have : lexParseLoopE m gs tbl (n + 1) none it st s world = .diverge := by
          simp [lexParseLoopE, nextKindE, hn]
        rw [this]
        exact .diverge (toks := []) rfl (by simp) hask hn
      | ok x =>
        obtain ⟨⟨tok, it'⟩, world'⟩ := x
        cases tok with
        | none =>
          have : lexParseLoopE m gs tbl (n + 1) none it st s world =
              withWorld world' (parseLoop tbl (.ok ()) (n + 1) ([] ++ ([] : List (Tok T)).map Tok.kind) st s) := by
            simp [lexParseLoopE, nextKindE, hn, parseLoop]
          rw [this]
          exact .ended (toks := []) rfl (by simp) hask hn
        | some t =>
          have : lexParseLoopE m gs tbl (n + 1) none it st s world =
              lexParseLoopE m gs tbl (n + 1) (some t.kind) it' st s world' := by
            simp [lexParseLoopE, nextKindE, hn]
          rw [this]
          exact (hsome t.kind it' st s world').next hn hask

/-! ## There is only one outcome -/

/-- The answers of `n + k` calls are those of `n` calls and of `k` more. -/
theorem lexCallsE_add {j k : Nat} : ∀ {it : InputIter} {world : W},
    lexCallsE m gs (j + k) it world = (do
      let ((as, it), world) ← lexCallsE m gs j it world
      let ((bs, it), world) ← lexCallsE m gs k it world
      pure ((as ++ bs, it), world)) := by
  induction j with
  | zero =>
    intro it world
    simp only [Nat.zero_add, lexCallsE, Outcome.bind_ok, List.nil_append]
    cases lexCallsE m gs k it world <;> rfl
  | succ j ih =>
    intro it world
    rw [Nat.add_right_comm]
    simp only [lexCallsE, ih]
    cases lexNextE m gs it world with
    | panic => rfl
    | diverge => rfl
    | ok x =>
      obtain ⟨⟨a, it'⟩, world'⟩ := x
      simp only [Outcome.bind_ok]
      cases lexCallsE m gs j it' world' with
      | panic => rfl
      | diverge => rfl
      | ok y =>
        obtain ⟨⟨as, it''⟩, world''⟩ := y
        simp only [Outcome.bind_ok, Outcome.pure_eq]
        cases hc : lexCallsE m gs k it'' world'' <;> simp [hc]

/-- Of two sequences of tokens one continues the other. -/
theorem calls_comparable {toks toks' : List (Tok T)} {it it1 it2 : InputIter} {world w1 w2 : W}
    (h1 : lexCallsE m gs toks.length it world = .ok ((toks.map some, it1), w1))
    (h2 : lexCallsE m gs toks'.length it world = .ok ((toks'.map some, it2), w2)) (hle : toks.length ≤ toks'.length) :
    (toks = toks' ∧ it1 = it2 ∧ w1 = w2) ∨
      (toks.length < toks'.length ∧ toks = toks'.take toks.length ∧
        ∃ t it' w', lexNextE m gs it1 w1 = .ok ((some t, it'), w')) := by
  obtain ⟨d, hd⟩ := Nat.exists_eq_add_of_le hle
  rw [hd, lexCallsE_add, h1] at h2
  simp only [Outcome.bind_ok] at h2
  cases hc : lexCallsE m gs d it1 w1 with
  | panic => simp [hc] at h2
  | diverge => simp [hc] at h2
  | ok x =>
    obtain ⟨⟨bs, it'⟩, w'⟩ := x
    simp only [hc, Outcome.bind_ok, Outcome.pure_eq, Outcome.ok.injEq, Prod.mk.injEq] at h2
    obtain ⟨⟨h2, rfl⟩, rfl⟩ := h2
    have htake : toks = toks'.take toks.length := by
      have := congrArg (List.take toks.length) h2
      rw [List.take_left' (by simp), ← List.map_take] at this
      exact (List.map_inj_right fun _ _ h => Option.some.inj h).1 this
    cases d with
    | zero =>
      left
      simp only [lexCallsE, Outcome.ok.injEq, Prod.mk.injEq] at hc
      refine ⟨?_, hc.1.2, hc.2⟩
      rw [htake, List.take_of_length_le (by omega)]
    | succ d =>
      right
      refine ⟨by omega, htake, ?_⟩
      simp only [lexCallsE] at hc
      cases hn : lexNextE m gs it1 w1 with
      | panic => simp [hn] at hc
      | diverge => simp [hn] at hc
      | ok y =>
        obtain ⟨⟨a, it3⟩, w3⟩ := y
        cases a with
        | some t => exact ⟨t, it3, w3, rfl⟩
        | none =>
          exfalso
          simp only [hn, Outcome.bind_ok] at hc
          cases hc' : lexCallsE m gs d it3 w3 with
          | panic => simp [hc'] at hc
          | diverge => simp [hc'] at hc
          | ok z =>
            simp only [hc', Outcome.bind_ok, Outcome.pure_eq, Outcome.ok.injEq, Prod.mk.injEq] at hc
            rw [← hc.1.1] at h2
            have : none ∈ toks'.map some := by rw [← h2]; simp
            simp at this

/-- A run without its outcome: the tokens that were asked for, and whether more are asked for. -/
theorem Runs.unique {n : Nat} {next : List T} {st : List (ParseNode V T)} {s : Nat} {it : InputIter} {world : W}
    {o o' : Outcome (Option (Node V T) × W)} (h : Runs m gs tbl n next st s it world o)
    (h' : Runs m gs tbl n next st s it world o') : o = o' := by
  -- both have asked for the same tokens
  have key : ∀ {toks toks' : List (Tok T)} {it1 it2 : InputIter} {w1 w2 : W},
      lexCallsE m gs toks.length it world = .ok ((toks.map some, it1), w1) →
      lexCallsE m gs toks'.length it world = .ok ((toks'.map some, it2), w2) →
      (∀ k < toks.length, LoopAsks tbl n (next ++ (toks.take k).map Tok.kind) st s) →
      (∀ k < toks'.length, LoopAsks tbl n (next ++ (toks'.take k).map Tok.kind) st s) →
      ((∃ res, LoopSettled tbl n (next ++ toks.map Tok.kind) st s res) ∨
        ∀ t it' w', lexNextE m gs it1 w1 ≠ .ok ((some t, it'), w')) →
      ((∃ res, LoopSettled tbl n (next ++ toks'.map Tok.kind) st s res) ∨
        ∀ t it' w', lexNextE m gs it2 w2 ≠ .ok ((some t, it'), w')) →
      toks = toks' ∧ it1 = it2 ∧ w1 = w2 := by
    have half : ∀ {toks toks' : List (Tok T)} {it1 it2 : InputIter} {w1 w2 : W},
        lexCallsE m gs toks.length it world = .ok ((toks.map some, it1), w1) →
        lexCallsE m gs toks'.length it world = .ok ((toks'.map some, it2), w2) →
        (∀ k < toks'.length, LoopAsks tbl n (next ++ (toks'.take k).map Tok.kind) st s) →
        ((∃ res, LoopSettled tbl n (next ++ toks.map Tok.kind) st s res) ∨
          ∀ t it' w', lexNextE m gs it1 w1 ≠ .ok ((some t, it'), w')) →
        toks.length ≤ toks'.length → toks = toks' ∧ it1 = it2 ∧ w1 = w2 := by
      intro toks toks' it1 it2 w1 w2 h1 h2 ha' he hle
      rcases calls_comparable h1 h2 hle with h3 | ⟨h3, h4, t, it', w', h5⟩
      · exact h3
      · rcases he with ⟨res, hs⟩ | hno
        · have := ha' _ h3
          rw [← h4] at this
          exact absurd hs (this.not_settled res)
        · exact absurd h5 (hno _ _ _)
    intro toks toks' it1 it2 w1 w2 h1 h2 ha ha' he he'
    rcases Nat.le_total toks.length toks'.length with hle | hle
    · exact half h1 h2 ha' he hle
    · obtain ⟨rfl, rfl, rfl⟩ := half h2 h1 ha he' hle
      exact ⟨rfl, rfl, rfl⟩
  cases h with
  | settled h1 h2 h3 =>
    cases h' with
    | settled h1' h2' h3' =>
      obtain ⟨rfl, rfl, rfl⟩ := key h1 h1' h2 h2' (.inl ⟨_, h3⟩) (.inl ⟨_, h3'⟩)
      have := (h3 [] .panic).symm.trans (h3' [] .panic)
      rw [this]
    | ended h1' h2' h3' h4' =>
      obtain ⟨rfl, rfl, rfl⟩ := key h1 h1' h2 h2' (.inl ⟨_, h3⟩) (.inr (by simp [h4']))
      exact absurd h3 (h3'.not_settled _)
    | panic h1' h2' h3' h4' =>
      obtain ⟨rfl, rfl, rfl⟩ := key h1 h1' h2 h2' (.inl ⟨_, h3⟩) (.inr (by simp [h4']))
      exact absurd h3 (h3'.not_settled _)
    | diverge h1' h2' h3' h4' =>
      obtain ⟨rfl, rfl, rfl⟩ := key h1 h1' h2 h2' (.inl ⟨_, h3⟩) (.inr (by simp [h4']))
      exact absurd h3 (h3'.not_settled _)
  | ended h1 h2 h3 h4 =>
    cases h' with
    | settled h1' h2' h3' =>
      obtain ⟨rfl, rfl, rfl⟩ := key h1 h1' h2 h2' (.inr (by simp [h4])) (.inl ⟨_, h3'⟩)
      exact absurd h3' (h3.not_settled _)
    | ended h1' h2' h3' h4' =>
      obtain ⟨rfl, rfl, rfl⟩ := key h1 h1' h2 h2' (.inr (by simp [h4])) (.inr (by simp [h4']))
      rw [h4] at h4'
      cases h4'
      rfl
    | panic h1' h2' h3' h4' =>
      obtain ⟨rfl, rfl, rfl⟩ := key h1 h1' h2 h2' (.inr (by simp [h4])) (.inr (by simp [h4']))
      rw [h4] at h4'
      cases h4'
    | diverge h1' h2' h3' h4' =>
      obtain ⟨rfl, rfl, rfl⟩ := key h1 h1' h2 h2' (.inr (by simp [h4])) (.inr (by simp [h4']))
      rw [h4] at h4'
      cases h4'
  | panic h1 h2 h3 h4 =>
    cases h' with
    | settled h1' h2' h3' =>
      obtain ⟨rfl, rfl, rfl⟩ := key h1 h1' h2 h2' (.inr (by simp [h4])) (.inl ⟨_, h3'⟩)
      exact absurd h3' (h3.not_settled _)
    | ended h1' h2' h3' h4' =>
      obtain ⟨rfl, rfl, rfl⟩ := key h1 h1' h2 h2' (.inr (by simp [h4])) (.inr (by simp [h4']))
      rw [h4] at h4'
      cases h4'
    | panic h1' h2' h3' h4' => rfl
    | diverge h1' h2' h3' h4' =>
      obtain ⟨rfl, rfl, rfl⟩ := key h1 h1' h2 h2' (.inr (by simp [h4])) (.inr (by simp [h4']))
      rw [h4] at h4'
      cases h4'
  | diverge h1 h2 h3 h4 =>
    cases h' with
    | settled h1' h2' h3' =>
      obtain ⟨rfl, rfl, rfl⟩ := key h1 h1' h2 h2' (.inr (by simp [h4])) (.inl ⟨_, h3'⟩)
      exact absurd h3' (h3.not_settled _)
    | ended h1' h2' h3' h4' =>
      obtain ⟨rfl, rfl, rfl⟩ := key h1 h1' h2 h2' (.inr (by simp [h4])) (.inr (by simp [h4']))
      rw [h4] at h4'
      cases h4'
    | panic h1' h2' h3' h4' =>
      obtain ⟨rfl, rfl, rfl⟩ := key h1 h1' h2 h2' (.inr (by simp [h4])) (.inr (by simp [h4']))
      rw [h4] at h4'
      cases h4'
    | diverge h1' h2' h3' h4' => rfl

/-! ## Functions without effects -/

/-- Generators that do nothing but return the kind. -/
def pureGens (gs : Generators T) : Generators (Lex.Action W T) :=
  gs.map fun g => (g.1, fun source world => .ok (g.2 source, world))

omit [TerminalEq T] in
theorem get_pureGens {gs : Generators T} {s : Nat} :
    (pureGens (W := W) gs).get s = (gs.get s).map fun f source world => .ok (f source, world) := by
  induction gs with
  | nil => rfl
  | cons g gs ih =>
    simp only [Generators.get, pureGens, List.map_cons, List.find?_cons] at ih ⊢
    cases hs : g.1 == s with
    | true => rfl
    | false => exact ih

omit [TerminalEq T] in
theorem lexLoopE_pure {gs : Generators T} : ∀ (sim : σ) (kind : Option T) (it : InputIter) (world : W),
    lexLoopE m (pureGens gs) sim kind it world = withWorld world (lexLoop m gs sim kind it) := by
  intro sim kind it
  induction hn : it.pending using Nat.strongRecOn generalizing sim kind it with
  | ind p ih =>
    subst hn
    intro world
    generalize hr : lexLoop m gs sim kind it = r
    rw [lexLoop] at hr
    rw [lexLoopE]
    split
    · rename_i ch it' h
      split at hr
      case h_2 it2 h2 => rw [h] at h2; cases h2
      rename_i ch2 it2 h2
      rw [h] at h2
      cases h2
      subst hr
      have hlt := InputIter.pending_next h
      cases m.canFeed sim ch with
      | panic => rfl
      | diverge => rfl
      | ok b =>
        cases b with
        | false => cases kind <;> rfl
        | true =>
          simp only
          cases m.feed sim ch with
          | panic => rfl
          | diverge => rfl
          | ok x =>
            obtain ⟨sim', b⟩ := x
            cases b with
            | false => exact ih _ hlt sim' kind it' rfl world
            | true =>
              simp only
              cases m.finals sim' with
              | nil => rfl
              | cons f _ =>
                simp only [get_pureGens]
                cases gs.get f with
                | none => rfl
                | some gen =>
                  simp only [Option.map_some]
                  exact ih _ (by rw [InputIter.pending_accept]; exact hlt) _ _ _ rfl world
    · rename_i it' h
      split at hr
      case h_1 ch2 it2 h2 => rw [h] at h2; cases h2
      rename_i it2 h2
      rw [h] at h2
      cases h2
      subst hr
      cases m.isAccepting sim with
      | panic => rfl
      | diverge => rfl
      | ok b => cases b <;> cases kind <;> rfl

omit [TerminalEq T] in
theorem lexNextE_pure {gs : Generators T} {it : InputIter} {world : W} :
    lexNextE m (pureGens gs) it world = withWorld world (lexNext m gs it) := by
  unfold lexNextE lexNext
  cases m.start with
  | panic => rfl
  | diverge => rfl
  | ok sim => exact lexLoopE_pure sim none it world

theorem lexParseLoopE_pure {gs : Generators T} (n : Nat) : ∀ (next : Option T) (it : InputIter)
    (st : List (ParseNode V T)) (s : Nat) (world : W),
    lexParseLoopE m (pureGens gs) tbl n next it st s world = withWorld world (lexParseLoop m gs tbl n next it st s) := by
  induction n with
  | zero => intros; rfl
  | succ n ih =>
    have hsome : ∀ (t : T) (it : InputIter) (st : List (ParseNode V T)) (s : Nat) (world : W),
        lexParseLoopE m (pureGens gs) tbl (n + 1) (some t) it st s world =
          withWorld world (lexParseLoop m gs tbl (n + 1) (some t) it st s) := by
      intro t it st s world
      simp only [lexParseLoopE, lexParseLoop, nextKindE, nextKind, Outcome.bind_ok]
      cases handleToken tbl (some t) st s with
      | panic => rfl
      | diverge => rfl
      | ok r =>
        cases r with
        | none => rfl
        | some h =>
          simp only [Outcome.bind_ok]
          cases h.accepted with
          | true => rfl
          | false => exact ih _ _ _ _ _
    intro next it st s world
    cases next with
    | some t => exact hsome t it st s world
    | none =>
      cases hn : lexNext m gs it with
      | panic => simp [lexParseLoopE, lexParseLoop, nextKindE, nextKind, lexNextE_pure, hn, withWorld]
      | diverge => simp [lexParseLoopE, lexParseLoop, nextKindE, nextKind, lexNextE_pure, hn, withWorld]
      | ok x =>
        obtain ⟨tok, it'⟩ := x
        cases tok with
        | none => simp [lexParseLoopE, lexParseLoop, nextKindE, nextKind, lexNextE_pure, hn, withWorld]
        | some t =>
          have h1 : lexParseLoopE m (pureGens gs) tbl (n + 1) none it st s world =
              lexParseLoopE m (pureGens gs) tbl (n + 1) (some t.kind) it' st s world := by
            simp [lexParseLoopE, nextKindE, lexNextE_pure, hn, withWorld]
          have h2 : lexParseLoop m gs tbl (n + 1) none it st s =
              lexParseLoop m gs tbl (n + 1) (some t.kind) it' st s := by
            simp [lexParseLoop, nextKind, hn]
          rw [h1, h2]
          exact hsome _ _ _ _ _

end Pango.Parse
