import Verif.Spec.MoreRules
import Verif.Spec.Orders
import Verif.Spec.ShiftReduce

/-!
# What more rules leave as it is
-/

namespace Pango.Spec

open Pango.Parse

variable {V T : Type} {g g' : Grammar V T}

theorem Extends.step (h : Extends g g') {x y : List (Sym V T)} (hs : Step g x y) : Step g' x y := by
  cases hs with
  | rule hr => exact .rule (h.2 _ hr)
  | eps => exact .eps

theorem Extends.derives (h : Extends g g') {x y : List (Sym V T)} (hd : Derives g x y) : Derives g' x y := by
  induction hd with
  | refl => exact .refl
  | step _ hs ih => exact .step ih (h.step hs)

theorem Extends.inFollow (h : Extends g g') {v : V} {x : Sym V T} (hf : InFollow g v x) : InFollow g' v x := by
  cases x with
  | term t => obtain ⟨w, α, β, hd⟩ := hf; exact ⟨w, α, β, h.derives hd⟩
  | var _ => exact hf
  | eps => exact hf

theorem Extends.followed (h : Extends g g') {v : V} (hf : Followed g v) : Followed g' v := by
  obtain ⟨a, pre, x, post, hr⟩ := hf
  exact ⟨a, pre, x, post, h.2 _ hr⟩

theorem Extends.followable (h : Extends g g') {v : V} (hf : Followable g v) : Followable g' v := by
  induction hf with
  | behind hf => exact .behind (h.followed hf)
  | last hr _ ih => exact .last (h.2 _ hr) ih

theorem Extends.surely (h : Extends g g') {v : V} (hf : SurelyFollowed g v) : SurelyFollowed g' v := by
  rcases hf with ⟨t, hf⟩ | hf | ⟨a, pre, hr, hf⟩
  · exact .inl ⟨t, h.inFollow hf⟩
  · exact .inr (.inl (h.followed hf))
  · exact .inr (.inr ⟨a, pre, h.2 _ hr, h.followed hf⟩)

theorem Extends.viable (h : Extends g g') {γ : List (Sym V T)} {p : V × Item V T} (hv : Viable g γ p) :
    Viable g' γ p := by
  induction hv with
  | start hr hf => rw [h.1] at hr ⊢; exact .start (h.2 _ hr) hf
  | expand _ hx hr hf ih => exact .expand ih hx (h.2 _ hr) hf
  | read _ ha ih => exact .read ih ha

theorem Extends.viableStart (h : Extends g g') {γ : List (Sym V T)} {i : Item V T} (hv : Viable g γ (g.start, i)) :
    Viable g' γ (g'.start, i) := h.1 ▸ h.viable hv

theorem Extends.needs (h : Extends g g') {a a' : Prop} (ha : a → a') {γ : List (Sym V T)} {p : V × Item V T}
    {k : Option T} (hn : Needs g a γ p k) : Needs g' a' γ p k := by
  cases hn with
  | shift hv hx => exact .shift (h.viable hv) hx
  | reduce hv hc hf => exact .reduce (h.viable hv) hc (h.inFollow hf)
  | accept hv hc hy => rw [h.1]; exact .accept (h.viableStart hv) hc (ha hy)

variable [TerminalEq T]

theorem Extends.fits (h : Extends g g') {a a' : Prop} (ha : a → a') (hf : Fits g' a') : Fits g a :=
  fun γ p p' k k' h1 h2 hk => hf γ p p' k k' (h.needs ha h1) (h.needs ha h2) hk

theorem Extends.shiftReduce (h : Extends g g') {x y : Config V T} (hs : ShiftReduce g x y) : ShiftReduce g' x y := by
  cases hs with
  | shift hv hx ht => exact .shift (h.viable hv) hx ht
  | reduce hv hc hf ht hl hv' hx => exact .reduce (h.viable hv) hc (h.inFollow hf) ht hl (h.viable hv') hx

theorem Extends.shiftReduces (h : Extends g g') {k : Nat} {x y : Config V T} (hs : ShiftReduces g k x y) :
    ShiftReduces g' k x y := by
  induction hs with
  | refl => exact .refl
  | step hs _ ih => exact .step (h.shiftReduce hs) ih

theorem Extends.run (h : Extends g g') {a a' : Prop} (ha : a') {w : List T} {k : Nat} {n : Node V T}
    (hr : MachineRun g a w k (.tree n)) : MachineRun g' a' w k (.tree n) := by
  obtain ⟨c, hs, hh⟩ := hr
  refine ⟨c, h.shiftReduces hs, ?_⟩
  cases hh with
  | accept hv hc _ hl => rw [h.1]; exact .accept (h.viableStart hv) hc ha hl

theorem accepts_of_run {a : Prop} {w : List T} {k : Nat} {n : Node V T}
    (hr : MachineRun g a w k (.tree n)) : a := by
  obtain ⟨c, _, hh⟩ := hr
  cases hh with
  | accept _ _ ha _ => exact ha

end Pango.Spec
