import Verif.Props.Effects

/-!
# C79: how many functions of the user are called
-/

namespace Pango.Props

open Pango Pango.Lex Pango.Fsm Pango.Regex Pango.Spec

variable [Unicode] {K : Type}

omit [Unicode] in
theorem applies_length {rules : List (List Char → Prop)} {skipped w rest : List Char} {log : Log}
    (h : Applies rules skipped w rest log) : ∀ {m : Nat}, (∀ v, v ≠ [] → v <+: rest → AnyMatch rules (w ++ v) → v.length ≤ m) →
    log.length ≤ m := by
  induction h with
  | done => simp
  | @skip w rest c log _ _ ih =>
    intro m hm
    refine Nat.le_trans (ih (m := m - 1) fun v hv h1 h2 => ?_) (by omega)
    have := hm (c :: v) (by simp) (List.cons_prefix_cons.2 ⟨rfl, h1⟩) (by simpa using h2)
    simp only [List.length_cons] at this
    omega
  | @apply w rest c i log hf _ ih =>
    intro m hm
    have h0 := hm [c] (by simp) (List.cons_prefix_cons.2 ⟨rfl, List.nil_prefix⟩) hf.anyMatch
    simp only [List.length_singleton] at h0
    have := ih (m := m - 1) fun v hv h1 h2 => by
      have := hm (c :: v) (by simp) (List.cons_prefix_cons.2 ⟨rfl, h1⟩) (by simpa using h2)
      simp only [List.length_cons] at this
      omega
    simp only [List.length_cons]
    omega

omit [Unicode] in
/-- A call takes at least as many characters as it calls functions. -/
theorem call_takes {rules : List (List Char → Prop)} {Live : List Char → Prop} {kind : Nat → List Char → Option K}
    (mono : ∀ w v, Live (w ++ v) → Live w) {sc sc' : Scanner} {a : Option (Tok K)} (hc : Call rules Live kind sc a sc')
    {u : List (Nat × Char)} (hu : ReadsUpTo Live sc.left u) {log : Log}
    (hlog : Applies rules (word sc.skipped) [] (word u) log) : log.length + sc'.left.length ≤ sc.left.length := by
  have hlen : log.length ≤ u.length := applies_length hlog fun v _ h _ => by
    simpa [word] using h.length_le
  have hul := hu.isPrefix.length_le
  cases hc with
  | @token w back x i k hpre hlive hnlive hlong _ _ =>
    have hu' : u = w ++ back := hu.unique mono ⟨(List.prefix_append ..).trans hpre, hlive, fun y hy => by
      have : w ++ back ++ [y] = w ++ back ++ [x] := by
        have h1 := List.prefix_of_prefix_length_le hy hpre (by simp)
        exact h1.eq_of_length (by simp)
      rw [this]
      exact hnlive⟩
    subst hu'
    have h1 : log.length ≤ w.length := applies_length hlog fun v _ h2 h3 => by
      have := hlong.longest v h2 (by simpa using h3)
      simpa [word] using this
    have h2 := hpre.length_le
    simp only [Scanner.left, List.length_append, List.length_drop, List.length_singleton] at h2 ⊢
    omega
  | last _ _ _ _ =>
    simp only [Scanner.left, List.length_append, List.length_nil] at hul ⊢
    omega
  | @nothing v x hpre hlive hnlive hno =>
    have hu' : u = v := hu.unique mono ⟨(List.prefix_append ..).trans hpre, hlive, fun y hy => by
      have : v ++ [y] = v ++ [x] := by
        have h1 := List.prefix_of_prefix_length_le hy hpre (by simp)
        exact h1.eq_of_length (by simp)
      rw [this]
      exact hnlive⟩
    subst hu'
    have : log = [] := hlog.nil fun v hv h1 => hno v hv h1
    rw [this]
    simp only [Scanner.left, List.length_append, List.length_drop, List.length_nil]
    omega
  | over _ _ =>
    simp only [Scanner.left, List.length_append, List.length_nil] at hul ⊢
    omega

/-- C79.  However often `next` is called, the functions given with the rules are called at most as often as the input
has characters. -/
theorem c79_calls (p : Profile) (patterns : List (List Char)) (es : List Expr) (l : Lexer (Action Log Nat))
    (hl : LexerFor p (noting patterns) es l) (input : List Char) (as : List (Option (Tok Nat))) (log : Log)
    (h : Notes l input as log) : log.length ≤ input.length := by
  obtain ⟨_, sc', h⟩ := (c69_calls_partial _ _ _ _ hl _ _ _ _ _).1 h
  have key : ∀ {sc sc' : Scanner} {world world' : Log} {as : List (Option (Tok Nat))},
      CallsE (taken es) (Readable es) (Passes es) (kindAt (noting patterns)) sc world as sc' world' →
      world'.length ≤ world.length + sc.left.length := by
    intro sc sc' world world' as h
    induction h with
    | done => omega
    | @next sc sc' sc'' world world' world'' a as u log k hp hc hu hlog hrun _ ih =>
      obtain ⟨k', h3, _, _⟩ := noting_call hl hc hu hlog world
      rw [hrun, Outcome.ok.injEq, Prod.mk.injEq] at h3
      obtain ⟨rfl, rfl⟩ := h3
      have := call_takes (fun _ _ h => hl.toBuilt.readable_mono h) hc hu hlog
      simp only [List.length_append] at ih
      omega
  have := key h
  have hn : ∀ (cs : List Char) (n : Nat), (numbered n cs).length = cs.length := by
    intro cs
    induction cs with
    | nil => exact fun _ => rfl
    | cons c cs ih => exact fun n => by simp [numbered, ih]
  simpa [Scanner.new, Scanner.left, hn] using this

/-- The hypotheses are met, and the bound is reached. -/
example : LexerFor .debug (noting ["a+".toList, "=".toList, "==".toList]) wordsTrees notingWords ∧
    Notes notingWords "aa=".toList [some ⟨0, "aa".toList, (0, 2)⟩, some ⟨1, "=".toList, (2, 3)⟩, none]
      [(0, "a".toList), (0, "aa".toList), (1, "=".toList)] :=
  ⟨notingWords_for, notingWords_notes⟩

end Pango.Props
