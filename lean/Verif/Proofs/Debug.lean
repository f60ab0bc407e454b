import Verif.Spec.Debug
import Verif.Proofs.Reads

/-!
# What is written while a lexer reads
-/

namespace Pango.Lex

open Pango.Spec

variable {σ K : Type} {m : Machine σ} {gs : Generators K} {p : Profile}

theorem lexLoopD_fst {sim : σ} {kind : Option K} {it : InputIter} {out : List (Dbg σ)} :
    (lexLoopD p m gs sim kind it out >>= fun r => pure r.1) = lexLoop m gs sim kind it := by
  fun_induction lexLoopD p m gs sim kind it out <;> rw [lexLoop] <;> split <;> simp_all <;> split <;> simp_all

theorem lexNextD_fst {it : InputIter} {out : List (Dbg σ)} :
    (lexNextD p m gs it out >>= fun r => pure r.1) = lexNext m gs it := by
  unfold lexNextD lexNext
  cases m.start with
  | ok sim => exact lexLoopD_fst
  | panic => rfl
  | diverge => rfl

theorem lexCallsD_fst {calls : Nat} : ∀ {it : InputIter} {out : List (Dbg σ)},
    (lexCallsD p m gs calls it out >>= fun r => pure r.1) = lexCalls m gs calls it := by
  induction calls with
  | zero => intro it out; rfl
  | succ calls ih =>
    intro it out
    simp only [lexCallsD, lexCalls, ← lexNextD_fst (p := p) (out := out)]
    cases lexNextD p m gs it out with
    | ok r =>
      obtain ⟨⟨a, it'⟩, out'⟩ := r
      simp only [Outcome.bind_ok, Outcome.pure_eq, ← ih (out := out')]
      cases lexCallsD p m gs calls it' out' <;> rfl
    | panic => rfl
    | diverge => rfl

theorem lexLoopD_release {sim : σ} {kind : Option K} {it : InputIter} {out : List (Dbg σ)} :
    ∀ {r : (Option (Tok K) × InputIter) × List (Dbg σ)}, lexLoopD .release m gs sim kind it out = .ok r → r.2 = out := by
  fun_induction lexLoopD .release m gs sim kind it out with
  | case4 _ _ _ _ _ _ _ _ _ _ _ _ _ _ _ ih => exact ih
  | case5 _ _ _ _ _ _ _ _ _ _ ih => exact ih
  | _ =>
    intro r h
    simp_all <;> (try (rw [← h]; split <;> rfl)) <;> (try (subst h; rfl))

theorem lexCallsD_release {calls : Nat} : ∀ {it : InputIter} {out : List (Dbg σ)} {r},
    lexCallsD .release m gs calls it out = .ok r → r.2 = out := by
  induction calls with
  | zero =>
    intro it out r h
    simp only [lexCallsD, Outcome.ok.injEq] at h
    rw [← h]
  | succ calls ih =>
    intro it out r h
    simp only [lexCallsD, lexNextD, Outcome.bind_eq_ok] at h
    obtain ⟨⟨⟨a, it1⟩, out1⟩, ⟨sim, _, h1⟩, ⟨⟨as, it2⟩, out2⟩, h2, h3⟩ := h
    cases h3
    exact (ih h2).trans (lexLoopD_release h1)

variable {rules : List (List Char → Prop)} {Live : List Char → Prop} {Sim : σ → List Char → Prop}

/-- What the loop writes in a debug build. -/
theorem Lexes.written (R : Reads m gs rules Live Sim) {sim : σ} {kind : Option K} {it it' : InputIter}
    {r : Option (Tok K)} (h : Lexes m gs sim kind it r it') : ∀ {w : List Char}, Sim sim w → Live w →
    ∃ (u : List Char) (ds : List (Dbg σ)), (∀ out, lexLoopD .debug m gs sim kind it out = .ok ((r, it'), out ++ ds)) ∧
      u <+: chars it.rest ∧ Live (w ++ u) ∧
      (u = chars it.rest ∨ ∃ x, u ++ [x] <+: chars it.rest ∧ ¬ Live (w ++ u ++ [x])) ∧ WrittenFor rules w u ds := by
  have rest : ∀ {it it1 : InputIter} {ch : Char}, it.next = (some ch, it1) → chars it.rest = ch :: chars it1.rest := by
    intro it it1 ch hnext
    obtain ⟨p', hrest, _⟩ := next_some hnext
    rw [InputIter.rest, hrest]
    rfl
  have stop : ∀ {sim : σ} {it it1 : InputIter} {ch : Char} {w : List Char}, it.next = (some ch, it1) →
      m.canFeed sim ch = .ok false → Sim sim w →
      (([] : List Char) = chars it.rest ∨ ∃ x, [] ++ [x] <+: chars it.rest ∧ ¬ Live (w ++ [] ++ [x])) := by
    intro sim it it1 ch w hn hc hs
    refine .inr ⟨ch, ⟨chars it1.rest, by rw [rest hn]; rfl⟩, fun hl => ?_⟩
    rw [List.append_nil] at hl
    exact absurd ((R.canFeed hs hc).2 hl) (by simp)
  have go : ∀ {sim sim' : σ} {it it1 it2 it' : InputIter} {ch : Char} {acc : Bool} {w : List Char} {r : Option (Tok K)}
      {kind kind' : Option K}, it.next = (some ch, it1) → m.canFeed sim ch = .ok true →
      m.feed sim ch = .ok (sim', acc) → chars it2.rest = chars it1.rest →
      (∀ out, lexLoopD .debug m gs sim kind it out = lexLoopD .debug m gs sim' kind' it2 (out ++ [⟨ch, sim', acc⟩])) →
      (∀ {w : List Char}, Sim sim' w → Live w →
        ∃ (u : List Char) (ds : List (Dbg σ)),
          (∀ out, lexLoopD .debug m gs sim' kind' it2 out = .ok ((r, it'), out ++ ds)) ∧
          u <+: chars it2.rest ∧ Live (w ++ u) ∧
          (u = chars it2.rest ∨ ∃ x, u ++ [x] <+: chars it2.rest ∧ ¬ Live (w ++ u ++ [x])) ∧ WrittenFor rules w u ds) →
      Sim sim w →
      ∃ (u : List Char) (ds : List (Dbg σ)), (∀ out, lexLoopD .debug m gs sim kind it out = .ok ((r, it'), out ++ ds)) ∧
        u <+: chars it.rest ∧ Live (w ++ u) ∧
        (u = chars it.rest ∨ ∃ x, u ++ [x] <+: chars it.rest ∧ ¬ Live (w ++ u ++ [x])) ∧ WrittenFor rules w u ds := by
    intro sim sim' it it1 it2 it' ch acc w r kind kind' hn hc hf hrest hstep ih hs
    obtain ⟨h1, h2⟩ := R.feed hs hf
    obtain ⟨u, ds, e1, e2, e3, e4, e5⟩ := ih h1 ((R.canFeed hs hc).1 rfl)
    rw [hrest] at e2 e4
    refine ⟨ch :: u, ⟨ch, sim', acc⟩ :: ds, fun out => ?_, ?_, ?_, ?_, .cons (d := ⟨ch, sim', acc⟩) h2 e5⟩
    · rw [hstep, e1]
      simp
    · rw [rest hn]
      exact List.cons_prefix_cons.2 ⟨rfl, e2⟩
    · simpa using e3
    · rw [rest hn]
      rcases e4 with rfl | ⟨x, e4, e6⟩
      · exact .inl rfl
      · exact .inr ⟨x, List.cons_prefix_cons.2 ⟨rfl, e4⟩, by simpa using e6⟩
  induction h with
  | stopNone h1 h2 =>
    intro w hs hl
    refine ⟨[], [], fun out => ?_, List.nil_prefix, by simpa using hl, stop h1 h2 hs, .nil⟩
    rw [lexLoopD]
    split <;> simp_all
  | stopSome h1 h2 =>
    intro w hs hl
    refine ⟨[], [], fun out => ?_, List.nil_prefix, by simpa using hl, stop h1 h2 hs, .nil⟩
    rw [lexLoopD]
    split <;> simp_all [takeToken, InputIter.consumeToken]
  | @accept sim sim' kind it it' it'' ch f fs gen r h1 h2 h3 h4 h5 _ ih =>
    intro w hs hl
    refine go (it2 := it'.acceptSuffix) (kind' := some (gen it'.acceptSuffix.source)) h1 h2 h3 rfl (fun out => ?_) ih hs
    rw [lexLoopD]
    split <;> simp_all [writeDbg]
  | step h1 h2 h3 _ ih =>
    intro w hs hl
    refine go h1 h2 h3 rfl (fun out => ?_) ih hs
    rw [lexLoopD]
    split <;> simp_all [writeDbg]
  | eofSome h1 h2 =>
    intro w hs hl
    obtain ⟨_, e1, e2⟩ := next_none h1
    refine ⟨[], [], fun out => ?_, List.nil_prefix, by simpa using hl, .inl (by simp [InputIter.rest, e1, e2, chars]), .nil⟩
    rw [lexLoopD]
    split <;> simp_all [takeToken, InputIter.consumeToken]
  | @eofNone sim kind it it' b h1 h2 h3 =>
    intro w hs hl
    obtain ⟨_, e1, e2⟩ := next_none h1
    refine ⟨[], [], fun out => ?_, List.nil_prefix, by simpa using hl, .inl (by simp [InputIter.rest, e1, e2, chars]), .nil⟩
    rw [lexLoopD]
    split
    · rename_i h
      rw [h1] at h
      cases h
    · rename_i h
      rw [h1] at h
      cases h
      rw [h2, List.append_nil]
      rcases h3 with rfl | rfl
      · rfl
      · cases b <;> rfl

/-- A character is written for every one that is read, except for the one at which the call stops. -/
theorem Lexes.counted {sim : σ} {kind : Option K} {it it' : InputIter} {r : Option (Tok K)}
    (h : Lexes m gs sim kind it r it') : ∃ (k : Nat) (ds : List (Dbg σ)),
    (∀ n, lexLoopN m gs sim kind it n = .ok ((r, it'), n + k)) ∧
    (∀ out, lexLoopD .debug m gs sim kind it out = .ok ((r, it'), out ++ ds)) ∧ ds.length ≤ k ∧ k ≤ ds.length + 1 := by
  induction h with
  | stopNone h1 h2 =>
    refine ⟨1, [], fun n => ?_, fun out => ?_, by simp, by simp⟩
    · rw [lexLoopN]
      split <;> simp_all
    · rw [lexLoopD]
      split <;> simp_all
  | stopSome h1 h2 =>
    refine ⟨1, [], fun n => ?_, fun out => ?_, by simp, by simp⟩
    · rw [lexLoopN]
      split <;> simp_all [takeToken, InputIter.consumeToken]
    · rw [lexLoopD]
      split <;> simp_all [takeToken, InputIter.consumeToken]
  | @accept sim sim' kind it it' it'' ch f fs gen r h1 h2 h3 h4 h5 _ ih =>
    obtain ⟨k, ds, e1, e2, e3, e4⟩ := ih
    refine ⟨k + 1, ⟨ch, sim', true⟩ :: ds, fun n => ?_, fun out => ?_, by simpa using e3, by simpa using e4⟩
    · rw [lexLoopN]
      split <;> simp_all [Nat.add_comm, Nat.add_left_comm]
    · rw [lexLoopD]
      split <;> simp_all [writeDbg]
  | @step sim sim' kind it it' it'' ch r h1 h2 h3 _ ih =>
    obtain ⟨k, ds, e1, e2, e3, e4⟩ := ih
    refine ⟨k + 1, ⟨ch, sim', false⟩ :: ds, fun n => ?_, fun out => ?_, by simpa using e3, by simpa using e4⟩
    · rw [lexLoopN]
      split <;> simp_all [Nat.add_comm, Nat.add_left_comm]
    · rw [lexLoopD]
      split <;> simp_all [writeDbg]
  | eofSome h1 h2 =>
    refine ⟨0, [], fun n => ?_, fun out => ?_, by simp, by simp⟩
    · rw [lexLoopN]
      split <;> simp_all [takeToken, InputIter.consumeToken]
    · rw [lexLoopD]
      split <;> simp_all [takeToken, InputIter.consumeToken]
  | @eofNone sim kind it it' b h1 h2 h3 =>
    refine ⟨0, [], fun n => ?_, fun out => ?_, by simp, by simp⟩
    · rw [lexLoopN]
      split
      · rename_i h
        rw [h1] at h
        cases h
      · rename_i h
        rw [h1] at h
        cases h
        rw [h2]
        rcases h3 with rfl | rfl
        · rfl
        · cases b <;> rfl
    · rw [lexLoopD]
      split
      · rename_i h
        rw [h1] at h
        cases h
      · rename_i h
        rw [h1] at h
        cases h
        rw [h2, List.append_nil]
        rcases h3 with rfl | rfl
        · rfl
        · cases b <;> rfl

theorem lexCallsD_counted {calls : Nat} : ∀ {it it' it'' : InputIter} {as as' : List (Option (Tok K))} {n n' : Nat}
    {out out' : List (Dbg σ)}, lexCallsN m gs calls it n = .ok ((as, it'), n') →
    lexCallsD .debug m gs calls it out = .ok ((as', it''), out') →
    ∃ k d, n' = n + k ∧ out'.length = out.length + d ∧ d ≤ k ∧ k ≤ d + calls := by
  induction calls with
  | zero =>
    intro it it' it'' as as' n n' out out' h h'
    cases h
    cases h'
    exact ⟨0, 0, rfl, rfl, Nat.le_refl _, Nat.le_refl _⟩
  | succ calls ih =>
    intro it it' it'' as as' n n' out out' h h'
    simp only [lexCallsN, lexNextN, lexCallsD, lexNextD, Outcome.bind_eq_ok] at h h'
    obtain ⟨⟨⟨a, it1⟩, n1⟩, ⟨sim, hs, h1⟩, ⟨⟨as1, it2⟩, n2⟩, h2, h3⟩ := h
    obtain ⟨⟨⟨a', it1'⟩, out1⟩, ⟨sim', hs', h1'⟩, ⟨⟨as1', it2'⟩, out2⟩, h2', h3'⟩ := h'
    rw [hs] at hs'
    cases hs'
    cases h3
    cases h3'
    obtain ⟨k, ds, e1, e2, e3, e4⟩ := (lexLoop_ok (lexLoop_of_N h1)).counted
    rw [e1] at h1
    rw [e2] at h1'
    cases h1
    cases h1'
    obtain ⟨k', d', f1, f2, f3, f4⟩ := ih h2 h2'
    refine ⟨k + k', ds.length + d', by omega, by simp [f2]; omega, by omega, by omega⟩

end Pango.Lex
