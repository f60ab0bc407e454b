import Verif.Proofs.Munch

/-!
# Machines that agree on some words do the same there
-/

namespace Pango.Lex

open Pango.Spec

variable {σ τ K : Type} {m : Machine σ} {gs : Generators K} {rules : List (List Char → Prop)}
  {Live : List Char → Prop} {Sim : σ → List Char → Prop} {m' : Machine τ} {gs' : Generators K}
  {rules' : List (List Char → Prop)} {Live' : List Char → Prop} {Sim' : τ → List Char → Prop}

/-- What two machines have to agree on. -/
structure Agree (gs : Generators K) (rules : List (List Char → Prop)) (Live : List Char → Prop)
    (gs' : Generators K) (rules' : List (List Char → Prop)) (Live' : List Char → Prop) (Dom : List Char → Prop) :
    Prop where
  more : ∀ {w c}, Dom w → Dom (w ++ [c])
  live : ∀ {w}, Dom w → (Live w ↔ Live' w)
  any : ∀ {w}, Dom w → (AnyMatch rules w ↔ AnyMatch rules' w)
  kind : ∀ {w i i' src k k'}, Dom w → FirstMatch rules w i → FirstMatch rules' w i' → KindOf gs i src k →
    KindOf gs' i' src k' → k = k'

/-- The loops of two machines that agree on the words that are read. -/
theorem Lexes.agree (R : Reads m gs rules Live Sim) (R' : Reads m' gs' rules' Live' Sim') {Dom : List Char → Prop}
    (A : Agree gs rules Live gs' rules' Live' Dom) {sim : σ} {kind : Option K} {it it1 : InputIter}
    {r : Option (Tok K)} (h : Lexes m gs sim kind it r it1) : ∀ {w : List Char} {sim' : τ} {r' : Option (Tok K)}
    {it2 : InputIter}, Sim sim w → Sim' sim' w →
    (Dom w ∨ kind = none ∧ ∀ ch it3, it.next = (some ch, it3) → Dom (w ++ [ch])) →
    Lexes m' gs' sim' kind it r' it2 → r' = r ∧ it2 = it1 := by
  have read : ∀ {it it3 : InputIter} {ch : Char} {w : List Char} {kind : Option K}, it.next = (some ch, it3) →
      (Dom w ∨ kind = none ∧ ∀ ch it3, it.next = (some ch, it3) → Dom (w ++ [ch])) → Dom (w ++ [ch]) := by
    rintro it it3 ch w kind hn (h | ⟨_, h⟩)
    · exact A.more h
    · exact h ch it3 hn
  have feeds : ∀ {s : σ} {s' : τ} {w : List Char} {ch : Char} {b b' : Bool}, Sim s w → Sim' s' w → Dom (w ++ [ch]) →
      m.canFeed s ch = .ok b → m'.canFeed s' ch = .ok b' → b = b' := by
    intro s s' w ch b b' h1 h2 hd h3 h4
    exact Bool.eq_iff_iff.2 ((R.canFeed h1 h3).trans ((A.live hd).trans (R'.canFeed h2 h4).symm))
  have accepts : ∀ {s t : σ} {s' t' : τ} {w : List Char} {ch : Char} {b b' : Bool}, Sim s w → Sim' s' w →
      Dom (w ++ [ch]) → m.feed s ch = .ok (t, b) → m'.feed s' ch = .ok (t', b') → b = b' := by
    intro s t s' t' w ch b b' h1 h2 hd h3 h4
    exact Bool.eq_iff_iff.2 ((R.feed h1 h3).2.trans ((A.any hd).trans (R'.feed h2 h4).2.symm))
  induction h with
  | stopNone h1 h2 =>
    intro w sim' r' it2 hs hs' hd h
    have hd' := read h1 hd
    cases h with
    | stopNone h3 h4 => rw [h1] at h3; cases h3; exact ⟨rfl, rfl⟩
    | accept h3 h4 _ _ _ _ => rw [h1] at h3; cases h3; exact absurd (feeds hs hs' hd' h2 h4) (by simp)
    | step h3 h4 _ _ => rw [h1] at h3; cases h3; exact absurd (feeds hs hs' hd' h2 h4) (by simp)
    | eofNone h3 _ _ => rw [h1] at h3; cases h3
  | stopSome h1 h2 =>
    intro w sim' r' it2 hs hs' hd h
    have hd' := read h1 hd
    cases h with
    | stopSome h3 h4 => rw [h1] at h3; cases h3; exact ⟨rfl, rfl⟩
    | accept h3 h4 _ _ _ _ => rw [h1] at h3; cases h3; exact absurd (feeds hs hs' hd' h2 h4) (by simp)
    | step h3 h4 _ _ => rw [h1] at h3; cases h3; exact absurd (feeds hs hs' hd' h2 h4) (by simp)
    | eofSome h3 _ => rw [h1] at h3; cases h3
    | eofNone h3 _ _ => rw [h1] at h3; cases h3
  | accept h1 h2 h5 h6 h7 _ ih =>
    intro w sim' r' it2 hs hs' hd h
    have hd' := read h1 hd
    cases h with
    | stopNone h3 h4 => rw [h1] at h3; cases h3; exact absurd (feeds hs hs' hd' h2 h4) (by simp)
    | stopSome h3 h4 => rw [h1] at h3; cases h3; exact absurd (feeds hs hs' hd' h2 h4) (by simp)
    | accept h3 h4 h8 h9 h10 h11 =>
      rw [h1] at h3
      cases h3
      have s1 := (R.feed hs h5).1
      have s2 := (R'.feed hs' h8).1
      obtain ⟨i, e1, e2⟩ := R.first s1 h6 h7
      obtain ⟨i', e3, e4⟩ := R'.first s2 h9 h10
      rw [← A.kind hd' e1 e3 (e2 _) (e4 _)] at h11
      exact ih s1 s2 (.inl hd') h11
    | step h3 h4 h8 _ => rw [h1] at h3; cases h3; exact absurd (accepts hs hs' hd' h5 h8) (by simp)
    | eofSome h3 _ => rw [h1] at h3; cases h3
    | eofNone h3 _ _ => rw [h1] at h3; cases h3
  | step h1 h2 h5 _ ih =>
    intro w sim' r' it2 hs hs' hd h
    have hd' := read h1 hd
    cases h with
    | stopNone h3 h4 => rw [h1] at h3; cases h3; exact absurd (feeds hs hs' hd' h2 h4) (by simp)
    | stopSome h3 h4 => rw [h1] at h3; cases h3; exact absurd (feeds hs hs' hd' h2 h4) (by simp)
    | accept h3 h4 h8 _ _ _ => rw [h1] at h3; cases h3; exact absurd (accepts hs hs' hd' h5 h8) (by simp)
    | step h3 h4 h8 h9 =>
      rw [h1] at h3
      cases h3
      exact ih (R.feed hs h5).1 (R'.feed hs' h8).1 (.inl hd') h9
    | eofSome h3 _ => rw [h1] at h3; cases h3
    | eofNone h3 _ _ => rw [h1] at h3; cases h3
  | eofSome h1 h2 =>
    intro w sim' r' it2 hs hs' hd h
    have hd' : Dom w := by
      rcases hd with h | ⟨h, _⟩
      · exact h
      · cases h
    cases h with
    | stopSome h3 _ => rw [h1] at h3; cases h3
    | accept h3 _ _ _ _ _ => rw [h1] at h3; cases h3
    | step h3 _ _ _ => rw [h1] at h3; cases h3
    | eofSome h3 _ => rw [h1] at h3; cases h3; exact ⟨rfl, rfl⟩
    | eofNone h3 h4 h5 =>
      rcases h5 with rfl | h5
      · exact absurd ((R'.isAccepting hs' h4).2 ((A.any hd').1 ((R.isAccepting hs h2).1 rfl))) (by simp)
      · cases h5
  | eofNone h1 h2 h6 =>
    intro w sim' r' it2 hs hs' hd h
    cases h with
    | stopNone h3 _ => rw [h1] at h3; cases h3
    | stopSome h3 _ => rw [h1] at h3; cases h3
    | accept h3 _ _ _ _ _ => rw [h1] at h3; cases h3
    | step h3 _ _ _ => rw [h1] at h3; cases h3
    | eofSome h3 h4 =>
      rcases h6 with rfl | h6
      · have hd' : Dom w := by
          rcases hd with h | ⟨h, _⟩
          · exact h
          · cases h
        exact absurd ((R.isAccepting hs h2).2 ((A.any hd').2 ((R'.isAccepting hs' h4).1 rfl))) (by simp)
      · cases h6
    | eofNone h3 _ _ => rw [h1] at h3; cases h3; exact ⟨rfl, rfl⟩

end Pango.Lex
