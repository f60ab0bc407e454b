import Verif.Spec.RegexUses
import Verif.Proofs.Cut

/-!
# What is read consists of characters of the patterns
-/

namespace Pango.Spec

open Pango.Regex

variable [Unicode]

theorem Uses.rest {e : Expr} {es : List Expr} {c : Char} (h : Uses (.concat es) c) : Uses (.concat (e :: es)) c := by
  cases h with
  | part hm h => exact .part (List.mem_cons_of_mem _ hm) h

theorem Uses.front {e : Expr} {es : List Expr} {c : Char} (h : Uses e c) : Uses (.concat (e :: es)) c :=
  .part (List.mem_cons_self ..) h

theorem Matches.uses {e : Expr} {w : List Char} (h : Matches e w) : ∀ c ∈ w, Uses e c := by
  induction h with
  | empty | nil => simp
  | altL _ ih => exact fun c hc => .altL (ih c hc)
  | altR _ ih => exact fun c hc => .altR (ih c hc)
  | cons _ _ ih1 ih2 =>
    intro c hc
    rcases List.mem_append.1 hc with hc | hc
    · exact (ih1 c hc).front
    · exact (ih2 c hc).rest
  | lit _ h => exact fun c hc => .lit (h c hc)
  | group _ _ ih =>
    intro c hc
    obtain ⟨w, hw, hc⟩ := List.mem_flatten.1 hc
    exact .group (ih w hw c hc)

theorem flatten_uses {e : Expr} {ws : List (List Char)} (h : ∀ w ∈ ws, Matches e w) : ∀ c ∈ ws.flatten, Uses e c := by
  intro c hc
  obtain ⟨w, hw, hc⟩ := List.mem_flatten.1 hc
  exact (h w hw).uses c hc

theorem MayRead.uses {e : Expr} {w : List Char} (h : MayRead e w) : ∀ c ∈ w, Uses e c := by
  induction h with
  | nothing => simp
  | altL _ ih => exact fun c hc => .altL (ih c hc)
  | altR _ ih => exact fun c hc => .altR (ih c hc)
  | here _ ih => exact fun c hc => (ih c hc).front
  | char h => exact fun c hc => by rw [List.mem_singleton.1 hc]; exact .lit h
  | chars h => exact fun c hc => .lit (h c hc)
  | once _ ih => exact fun c hc => .group (ih c hc)
  | later h _ ih =>
    intro c hc
    rcases List.mem_append.1 hc with hc | hc
    · exact (h.uses c hc).front
    · exact (ih c hc).rest
  | times h _ ih =>
    intro c hc
    rcases List.mem_append.1 hc with hc | hc
    · exact .group (flatten_uses h c hc)
    · exact .group (ih c hc)

theorem Begins.uses {e : Expr} {b : Bool} {w : List Char} (h : Begins e b w) : ∀ c ∈ w, Uses e c := by
  induction h with
  | lit h => exact fun c hc => by rw [List.mem_singleton.1 hc]; exact .lit h
  | rep _ _ h => exact fun c hc => .lit (h c hc)
  | altL _ ih => exact fun c hc => .altL (ih c hc)
  | altR _ ih => exact fun c hc => .altR (ih c hc)
  | here _ h ih =>
    intro c hc
    rcases List.mem_append.1 hc with hc | hc
    · exact (ih c hc).front
    · exact (h.uses c hc).rest
  | later _ _ ih => exact fun c hc => (ih c hc).rest
  | group _ ih => exact fun c hc => .group (ih c hc)
  | rounds _ h _ ih =>
    intro c hc
    rcases List.mem_append.1 hc with hc | hc
    · exact .group (ih c hc)
    · exact .group (flatten_uses h c hc)

theorem MayBegin.uses {e : Expr} {w : List Char} (h : MayBegin e w) : ∀ c ∈ w, Uses e c := by
  induction h with
  | char h => exact fun c hc => by rw [List.mem_singleton.1 hc]; exact .lit h
  | chars _ h => exact fun c hc => .lit (h c hc)
  | altL _ ih => exact fun c hc => .altL (ih c hc)
  | altR _ ih => exact fun c hc => .altR (ih c hc)
  | here _ ih => exact fun c hc => (ih c hc).front
  | after h h' =>
    intro c hc
    rcases List.mem_append.1 hc with hc | hc
    · exact (h.uses c hc).front
    · exact (h'.uses c hc).rest
  | later _ _ ih => exact fun c hc => (ih c hc).rest
  | group _ ih => exact fun c hc => .group (ih c hc)
  | first _ ih => exact fun c hc => .group (ih c hc)
  | inside h h' h'' =>
    intro c hc
    rcases List.mem_append.1 hc with hc | hc
    · exact .group (h.uses c hc)
    · rcases List.mem_append.1 hc with hc | hc
      · exact .group (flatten_uses h' c hc)
      · exact .group (h''.uses c hc)

/-- Only characters of the patterns are read. -/
theorem Readable.uses {es : List Expr} {w : List Char} (h : Readable es w) : ∀ c ∈ w, ∃ e ∈ es, Uses e c := by
  rcases h with rfl | ⟨e, he, h⟩
  · simp
  · exact fun c hc => ⟨e, he, h.uses c hc⟩

end Pango.Spec

namespace Pango.Lex

open Pango Pango.Spec

variable {K : Type} {rules : List (List Char → Prop)} {Live Ends : List Char → Prop} {kind : Nat → List Char → Option K}

/-- A character that is never read is where the tokens end. -/
theorem Cut.separated (mono : ∀ w v, Ends (w ++ v) → Ends w) (dead : ∀ w v, ¬ Live w → Ends w → Ends (w ++ v))
    (live : ∀ w, AnyMatch rules w → Live w) {c : Char} (sep : ∀ w, Live w → c ∉ w) {v v' : List Char}
    {as : List (Option (Tok K))} : ∀ {a : Nat} {u : List Char},
    Cut rules Live Ends kind a (u ++ c :: v) as → Cut rules Live Ends kind a (u ++ c :: v') as := by
  have ends : ∀ u, Ends (u ++ c :: v) → Ends (u ++ c :: v') := by
    intro u h
    have h1 : Ends (u ++ [c]) := mono _ v (by simpa using h)
    have h2 : ¬ Live (u ++ [c]) := fun h => sep _ h (by simp)
    simpa using dead _ v' h2 h1
  have short : ∀ {w u s : List Char}, Live w → w <+: u ++ c :: s → w <+: u := by
    intro w u s hl hw
    rcases Nat.lt_or_ge u.length w.length with h | h
    · have h1 : u ++ [c] <+: w := List.prefix_of_prefix_length_le (l₃ := u ++ c :: s) ⟨s, by simp⟩ hw (by simp; omega)
      exact absurd (h1.subset (by simp)) (sep _ hl)
    · exact List.prefix_of_prefix_length_le hw (List.prefix_append _ _) h
  induction as with
  | nil => exact fun _ => .done
  | cons x as ih =>
    intro a u h
    generalize hs : u ++ c :: v = s at h
    cases h with
    | stop he hm =>
      subst hs
      refine .stop (ends _ he) (.inl fun w hne hw ha => ?_)
      rcases hm with hm | hm
      case inr => exact absurd (show c ∈ u ++ c :: v by simp) (sep _ hm.1)
      exact hm w hne ((short (live _ ha) hw).trans (List.prefix_append _ _)) ha
    | @token _ i w rest k _ he hne hst hf hk hcs =>
      obtain ⟨u', rfl⟩ := short hst.1 ⟨rest, hs.symm⟩
      rw [List.append_assoc, List.append_cancel_left_eq] at hs
      subst hs
      have h1 := ends (w ++ u') (by simpa using he)
      rw [List.append_assoc] at h1 ⊢
      refine .token h1 hne ⟨hst.1, fun d r hd => ?_⟩ hf hk (ih hcs)
      cases u' with
      | nil =>
        simp only [List.nil_append, List.cons.injEq] at hd
        rw [← hd.1]
        exact fun h => sep _ h (by simp)
      | cons d' u' =>
        simp only [List.cons_append, List.cons.injEq] at hd
        rw [← hd.1]
        exact hst.2 d' _ rfl

end Pango.Lex
