import Verif.Proofs.Handle
import Verif.Proofs.Rename
import Verif.Proofs.Viable
import Verif.Spec.Payload

/-!
# Lemmas about the values of terminals

A grammar is compared with one in which each terminal is replaced by one of the same kind, so that terminals that were
different can become equal.  If no entry of the table is needed twice, then the items behind a string stay apart.
-/

namespace Pango.Spec

open Pango.Parse

variable {V T : Type} {k : T → T} {g g' : Grammar V T}

local notation "ren" => Sym.rename id

/-- `g'` is `g` with each terminal `t` replaced by `k t`, which is of the same kind. -/
structure Merges [TerminalEq T] (k : T → T) (g g' : Grammar V T) : Prop where
  kind : ∀ t, teq t (k t) = true
  start : g'.start = g.start
  rules : ∀ v β', (v, β') ∈ g'.rules ↔ ∃ β, (v, β) ∈ g.rules ∧ β' = β.map (ren k)

/-! ## Symbols and items -/

theorem ren_var {y : Sym V T} {v : V} (h : .var v = ren k y) : y = .var v := by
  cases y <;> simp_all [Sym.rename]

theorem ren_term {y : Sym V T} {t : T} (h : .term t = ren k y) : ∃ u, y = .term u ∧ t = k u := by
  cases y <;> simp_all [Sym.rename]

theorem ren_eps {y : Sym V T} (h : .eps = ren k y) : y = .eps := by
  cases y <;> simp_all [Sym.rename]

theorem cursorSymbol_ren (i : Item V T) : (renameItem id k i).cursorSymbol = i.cursorSymbol.map (ren k) := by
  simp [Item.cursorSymbol, renameItem]

theorem Reads.lift {i : Item V T} {x : Sym V T} (h : Reads (renameItem id k i) x) :
    ∃ y, x = ren k y ∧ Reads i y := by
  have h := reads_iff.1 h
  rw [cursorSymbol_ren] at h
  obtain ⟨y, h1, h2⟩ := Option.map_eq_some_iff.1 h
  exact ⟨y, h2.symm, reads_iff.2 h1⟩

theorem Fresh.lift {β : Body V T} {j : Item V T} (h : Fresh (β.map (ren k)) j) :
    ∃ i, j = renameItem id k i ∧ Fresh β i := by
  have h1 : Fresh β (Item.ofBody β) := fresh_iff.2 rfl
  exact ⟨_, (fresh_iff.1 h).trans (fresh_iff.1 (h1.rename (f := id) (k := k))).symm, h1⟩

theorem Reads.advanced {i : Item V T} {x : Sym V T} (h : Reads i x) : Advanced i x i.advance :=
  advanced_iff.2 ⟨reads_iff.1 h, rfl⟩

theorem Advanced.reads {i j : Item V T} {x : Sym V T} (h : Advanced i x j) : Reads i x :=
  reads_iff.2 (advanced_iff.1 h).1

theorem Advanced.lift {i j' : Item V T} {x : Sym V T} (h : Advanced (renameItem id k i) x j') :
    ∃ y j, x = ren k y ∧ j' = renameItem id k j ∧ Advanced i y j := by
  obtain ⟨y, rfl, hy⟩ := h.reads.lift
  refine ⟨y, i.advance, rfl, ?_, hy.advanced⟩
  rw [(advanced_iff.1 h).2, ← (advanced_iff.1 (hy.advanced.rename (f := id) (k := k))).2]

theorem Complete.lift {i : Item V T} (h : Complete (renameItem id k i)) : Complete i := by
  simpa [Complete, renameItem] using h

/-- The same rule or item of the other grammar. -/
def renP (k : T → T) (p : V × Item V T) : V × Item V T := (p.1, renameItem id k p.2)

theorem keyEq_kind [TerminalEq T] [LawfulTerminalEq T] (hk : ∀ t, teq t (k t) = true) (o o' : Option T) :
    keyEq (o.map k) o' = keyEq o o' := by
  have : ∀ t u, teq (k t) u = teq t u := by
    intro t u
    rw [Bool.eq_iff_iff]
    exact ⟨fun h => LawfulTerminalEq.trans _ _ _ (hk t) h,
      fun h => LawfulTerminalEq.trans _ _ _ (LawfulTerminalEq.symm _ _ (hk t)) h⟩
  cases o <;> cases o' <;> simp [keyEq, this]

namespace Merges

variable [TerminalEq T]

/-! ## What is kept -/

theorem rule (m : Merges k g g') {v : V} {β : Body V T} (h : (v, β) ∈ g.rules) : (v, β.map (ren k)) ∈ g'.rules :=
  (m.rules _ _).2 ⟨β, h, rfl⟩

theorem viable (m : Merges k g g') {γ : List (Sym V T)} {p : V × Item V T} (h : Viable g γ p) :
    Viable g' (γ.map (ren k)) (renP k p) := by
  induction h with
  | start hr hi =>
    have := Viable.start (g := g') (m.start ▸ m.rule hr) hi.rename
    rw [m.start] at this
    exact this
  | expand _ hx hr hj ih => exact .expand ih (hx.rename (f := id) (k := k)) (m.rule hr) hj.rename
  | read _ hj ih =>
    rw [List.map_append]
    exact .read ih hj.rename

theorem derives (m : Merges k g g') {x y : List (Sym V T)} (h : Derives g x y) :
    Derives g' (x.map (ren k)) (y.map (ren k)) := by
  induction h with
  | refl => exact .refl
  | step _ hs ih =>
    refine .step ih ?_
    cases hs with
    | rule hr => simpa [Sym.rename] using Step.rule (x := _) (m.rule hr)
    | eps => simpa [Sym.rename] using Step.eps

theorem inFollow (m : Merges k g g') {v : V} {t : T} (h : InFollow g v (.term t)) : InFollow g' v (.term (k t)) := by
  obtain ⟨w, α, β, h⟩ := h
  exact ⟨w, α.map (ren k), β.map (ren k), by simpa [Sym.rename] using m.derives h⟩

theorem followed (m : Merges k g g') {v : V} : Followed g v ↔ Followed g' v := by
  constructor
  · rintro ⟨h, pre, x, post, hr⟩
    exact ⟨h, pre.map (ren k), ren k x, post.map (ren k), by simpa [Sym.rename] using m.rule hr⟩
  · rintro ⟨h, pre', x', post', hr⟩
    obtain ⟨β, hβ, he⟩ := (m.rules _ _).1 hr
    obtain ⟨pre, r, rfl, rfl, h1⟩ := List.append_eq_map_iff.1 he
    obtain ⟨y, r, rfl, h2, h3⟩ := List.map_eq_cons_iff.1 h1
    obtain ⟨x, post, rfl, rfl, rfl⟩ := List.map_eq_cons_iff.1 h3
    obtain rfl := ren_var h2.symm
    exact ⟨h, pre, x, post, hβ⟩

theorem last (m : Merges k g g') {h v : V} :
    (∃ pre, (h, pre ++ [.var v]) ∈ g.rules) ↔ ∃ pre, (h, pre ++ [.var v]) ∈ g'.rules := by
  constructor
  · rintro ⟨pre, hr⟩
    exact ⟨pre.map (ren k), by simpa [Sym.rename] using m.rule hr⟩
  · rintro ⟨pre', hr⟩
    obtain ⟨β, hβ, he⟩ := (m.rules _ _).1 hr
    obtain ⟨pre, r, rfl, rfl, h1⟩ := List.append_eq_map_iff.1 he
    obtain ⟨y, r, rfl, h2, h3⟩ := List.map_eq_cons_iff.1 h1
    obtain rfl := List.map_eq_nil_iff.1 h3
    obtain rfl := ren_var h2.symm
    exact ⟨pre, hβ⟩

theorem followable (m : Merges k g g') {v : V} : Followable g v ↔ Followable g' v := by
  constructor
  · intro h
    induction h with
    | behind h => exact .behind (m.followed.1 h)
    | last hr _ ih =>
      obtain ⟨pre, hr⟩ := m.last.1 ⟨_, hr⟩
      exact .last hr ih
  · intro h
    induction h with
    | behind h => exact .behind (m.followed.2 h)
    | last hr _ ih =>
      obtain ⟨pre, hr⟩ := m.last.2 ⟨_, hr⟩
      exact .last hr ih

/-! ## What can be brought back -/

theorem derives_back (m : Merges k g g') {x y' : List (Sym V T)} (h : Derives g' (x.map (ren k)) y') :
    ∃ y, y' = y.map (ren k) ∧ Derives g x y := by
  generalize hx : x.map (ren k) = x' at h
  induction h with
  | refl => exact ⟨x, hx.symm, .refl⟩
  | step _ hs ih =>
    obtain ⟨y, rfl, hy⟩ := ih
    generalize he : y.map (ren k) = y' at hs
    cases hs with
    | rule hr =>
      obtain ⟨β, hβ, rfl⟩ := (m.rules _ _).1 hr
      obtain ⟨pre, r, rfl, rfl, h1⟩ := List.map_eq_append_iff.1 he
      obtain ⟨z, r, rfl, h2, rfl⟩ := List.map_eq_cons_iff.1 h1
      obtain rfl := ren_var h2.symm
      exact ⟨pre ++ (β ++ r), by simp, .step hy (.rule hβ)⟩
    | eps =>
      obtain ⟨pre, r, rfl, rfl, h1⟩ := List.map_eq_append_iff.1 he
      obtain ⟨z, r, rfl, h2, rfl⟩ := List.map_eq_cons_iff.1 h1
      obtain rfl := ren_eps h2.symm
      exact ⟨pre ++ r, by simp, .step hy .eps⟩

theorem inFollow_back (m : Merges k g g') {v : V} {t' : T} (h : InFollow g' v (.term t')) :
    ∃ t, t' = k t ∧ InFollow g v (.term t) := by
  obtain ⟨w, α', β', h⟩ := h
  obtain ⟨y, he, hy⟩ := m.derives_back (x := [.var w]) h
  obtain ⟨α, r, rfl, rfl, h1⟩ := List.append_eq_map_iff.1 he
  obtain ⟨z, r, rfl, h2, h3⟩ := List.map_eq_cons_iff.1 h1
  obtain ⟨x, β, rfl, h4, rfl⟩ := List.map_eq_cons_iff.1 h3
  obtain rfl := ren_var h2.symm
  obtain ⟨t, rfl, rfl⟩ := ren_term h4.symm
  exact ⟨t, rfl, w, α, β, hy⟩

theorem surelyFollowed (m : Merges k g g') {v : V} : SurelyFollowed g v ↔ SurelyFollowed g' v := by
  unfold SurelyFollowed
  refine or_congr ⟨fun ⟨t, h⟩ => ⟨_, m.inFollow h⟩, fun ⟨t, h⟩ => ?_⟩ (or_congr m.followed ⟨?_, ?_⟩)
  · obtain ⟨t, _, h⟩ := m.inFollow_back h
    exact ⟨t, h⟩
  · rintro ⟨h, pre, hr, hf⟩
    obtain ⟨pre, hr⟩ := m.last.1 ⟨_, hr⟩
    exact ⟨h, pre, hr, m.followed.1 hf⟩
  · rintro ⟨h, pre, hr, hf⟩
    obtain ⟨pre, hr⟩ := m.last.2 ⟨_, hr⟩
    exact ⟨h, pre, hr, m.followed.2 hf⟩

theorem inFirst_iff (m : Merges k g g') {v : V} :
    (∃ t, InFirst g [.var v] (.term t)) ↔ ∃ t, InFirst g' [.var v] (.term t) := by
  constructor
  · rintro ⟨t, β, h⟩
    exact ⟨k t, β.map (ren k), by simpa [Sym.rename] using m.derives h⟩
  · rintro ⟨t, β, h⟩
    obtain ⟨y, he, hy⟩ := m.derives_back (x := [.var v]) h
    obtain ⟨x, β, rfl, h1, rfl⟩ := List.map_eq_cons_iff.1 he.symm
    obtain ⟨t, rfl, rfl⟩ := ren_term h1.symm
    exact ⟨t, β, hy⟩

theorem reachable (m : Merges k g g') {v : V} : Reachable g v ↔ Reachable g' v := by
  constructor
  · intro h
    induction h with
    | start => exact m.start ▸ .start
    | step _ hr hv ih => exact .step ih (m.rule hr) (List.mem_map_of_mem (f := ren k) hv)
  · intro h
    induction h with
    | start => exact m.start ▸ .start
    | step _ hr hv ih =>
      obtain ⟨β, hβ, rfl⟩ := (m.rules _ _).1 hr
      obtain ⟨y, hy, he⟩ := List.mem_map.1 hv
      obtain rfl := ren_var he.symm
      exact .step ih hβ hy

theorem epsFree (m : Merges k g g') : EpsFree g ↔ EpsFree g' := by
  constructor
  · intro h v β' hr he
    obtain ⟨β, hβ, rfl⟩ := (m.rules _ _).1 hr
    obtain ⟨y, hy, he⟩ := List.mem_map.1 he
    obtain rfl := ren_eps he.symm
    exact h v β hβ hy
  · intro h v β hr he
    exact h v _ (m.rule hr) (List.mem_map.2 ⟨_, he, rfl⟩)

/-- Every string of the other grammar, and the item behind it, come from this one. -/
theorem viable_from (m : Merges k g g') {γ' : List (Sym V T)} {p' : V × Item V T} (h : Viable g' γ' p') :
    ∃ γ p, γ' = γ.map (ren k) ∧ p' = renP k p ∧ Viable g γ p := by
  induction h with
  | start hr hi =>
    rw [m.start] at hr ⊢
    obtain ⟨β, hβ, rfl⟩ := (m.rules _ _).1 hr
    obtain ⟨i, rfl, hi'⟩ := hi.lift
    exact ⟨[], (g.start, i), rfl, rfl, .start hβ hi'⟩
  | expand _ hx hr hj ih =>
    obtain ⟨γ, ⟨h, i⟩, rfl, he, hv⟩ := ih
    obtain ⟨rfl, rfl⟩ := Prod.mk.injEq .. ▸ he
    obtain ⟨β, hβ, rfl⟩ := (m.rules _ _).1 hr
    obtain ⟨j, rfl, hj'⟩ := hj.lift
    obtain ⟨y, hy, hr'⟩ := hx.lift
    obtain rfl := ren_var hy
    exact ⟨γ, (_, j), rfl, rfl, .expand hv hr' hβ hj'⟩
  | read _ hj ih =>
    obtain ⟨γ, ⟨h, i⟩, rfl, he, hv⟩ := ih
    obtain ⟨rfl, rfl⟩ := Prod.mk.injEq .. ▸ he
    obtain ⟨y, j, rfl, rfl, hj'⟩ := hj.lift
    exact ⟨γ ++ [y], (_, j), by simp, rfl, .read hv hj'⟩

variable [LawfulTerminalEq T]

/-- The items behind a string that is viable at all: if no entry of the table is needed twice, then none are added. -/
theorem viable_back (m : Merges k g g') {a : Prop} (hf : Fits g a) {γ' : List (Sym V T)} {p' : V × Item V T}
    (h : Viable g' γ' p') : ∀ γ, γ' = γ.map (ren k) → (∃ q, Viable g γ q) → ∃ p, p' = renP k p ∧ Viable g γ p := by
  induction h with
  | start hr hi =>
    intro γ hγ _
    obtain rfl := List.map_eq_nil_iff.1 hγ.symm
    rw [m.start] at hr ⊢
    obtain ⟨β, hβ, rfl⟩ := (m.rules _ _).1 hr
    obtain ⟨i, rfl, hi'⟩ := hi.lift
    exact ⟨(g.start, i), rfl, .start hβ hi'⟩
  | expand _ hx hr hj ih =>
    intro γ hγ hq
    obtain ⟨⟨h, i⟩, he, hv⟩ := ih γ hγ hq
    obtain ⟨rfl, rfl⟩ := Prod.mk.injEq .. ▸ he
    obtain ⟨β, hβ, rfl⟩ := (m.rules _ _).1 hr
    obtain ⟨j, rfl, hj'⟩ := hj.lift
    obtain ⟨y, hy, hr'⟩ := hx.lift
    obtain rfl := ren_var hy
    exact ⟨(_, j), rfl, .expand hv hr' hβ hj'⟩
  | @read γ1' h0 i0 j0 x0 _ hj ih =>
    intro γ hγ ⟨q, hq⟩
    obtain ⟨γ1, r, rfl, rfl, h1⟩ := List.append_eq_map_iff.1 hγ
    obtain ⟨x, r, rfl, h2, h3⟩ := List.map_eq_cons_iff.1 h1
    obtain rfl := List.map_eq_nil_iff.1 h3
    obtain ⟨⟨h', i'⟩, hv', hc'⟩ := Viable_snoc hq
    obtain ⟨⟨h, i⟩, he, hv⟩ := ih γ1 rfl ⟨_, hv'⟩
    obtain ⟨rfl, rfl⟩ := Prod.mk.injEq .. ▸ he
    obtain ⟨y, j, hy, rfl, hj'⟩ := hj.lift
    have hxy : y = x := by
      rw [hy] at h2
      cases x with
      | var v => exact ren_var h2
      | eps => exact ren_eps h2
      | term t =>
        obtain ⟨u, rfl, hu⟩ := ren_term h2
        have := hf γ1 _ _ _ _ (.shift hv hj'.reads) (.shift hv' (reads_iff.2 hc')) (by
          have hk : teq u (k t) = true := hu ▸ m.kind u
          exact LawfulTerminalEq.trans _ _ _ hk (LawfulTerminalEq.symm _ _ (m.kind t)))
        rw [Option.some.inj this.2]
    subst hxy
    exact ⟨(_, j), rfl, .read hv hj'⟩

omit [LawfulTerminalEq T] in
theorem needs_of (m : Merges k g g') {a : Prop} {γ γ' : List (Sym V T)} {p : V × Item V T} {o' : Option T}
    (h : Needs g' a γ' (renP k p) o') (hv : Viable g γ p) : ∃ o, o' = o.map k ∧ Needs g a γ p o := by
  obtain ⟨v, i⟩ := p
  generalize hp : renP k (v, i) = p' at h
  cases h with
  | shift _ hr =>
    cases hp
    obtain ⟨y, hy, hr'⟩ := hr.lift
    obtain ⟨u, rfl, rfl⟩ := ren_term hy
    exact ⟨some u, rfl, .shift hv hr'⟩
  | reduce _ hc hfo =>
    cases hp
    obtain ⟨t, rfl, hfo'⟩ := m.inFollow_back hfo
    exact ⟨some t, rfl, .reduce hv hc.lift hfo'⟩
  | accept _ hc ha =>
    obtain ⟨rfl, rfl⟩ := Prod.mk.injEq .. ▸ hp
    rw [m.start] at hv ⊢
    exact ⟨none, rfl, .accept hv hc.lift ha⟩

theorem needs_back (m : Merges k g g') {a : Prop} (hf : Fits g a) {γ : List (Sym V T)} {p' : V × Item V T}
    {o' : Option T} (h : Needs g' a (γ.map (ren k)) p' o') (hγ : ∃ q, Viable g γ q) :
    ∃ p o, p' = renP k p ∧ o' = o.map k ∧ Needs g a γ p o := by
  obtain ⟨p, rfl, hv⟩ := m.viable_back hf h.viable γ rfl hγ
  obtain ⟨o, rfl, hn⟩ := m.needs_of h hv
  exact ⟨p, o, rfl, rfl, hn⟩

theorem fits (m : Merges k g g') {a : Prop} (hf : Fits g a) : Fits g' a := by
  intro γ' p1' p2' o1' o2' h1 h2 he
  obtain ⟨γ, p1, rfl, rfl, hv⟩ := m.viable_from h1.viable
  obtain ⟨o1, rfl, hn1⟩ := m.needs_of h1 hv
  obtain ⟨p2, o2, rfl, rfl, hn2⟩ := m.needs_back hf h2 ⟨_, hv⟩
  have he' : keyEq o1 o2 = true := by
    rw [keyEq_kind m.kind] at he
    cases o1 <;> cases o2
    · rfl
    · cases he
    · cases he
    · rename_i t u
      exact LawfulTerminalEq.trans _ _ _ he (LawfulTerminalEq.symm _ _ (m.kind u))
  obtain ⟨rfl, rfl⟩ := hf γ _ _ _ _ hn1 hn2 he'
  exact ⟨rfl, rfl⟩

/-! ## When no entry is needed twice -/

omit [TerminalEq T] [LawfulTerminalEq T] in
theorem eq_of_map_filter {l l' : List (Sym V T)} (h : l.map (ren k) = l'.map (ren k))
    (hf : l.filter notEps = l'.filter notEps) : l = l' := by
  induction l generalizing l' with
  | nil => exact (List.map_eq_nil_iff.1 h.symm).symm
  | cons x l ih =>
    obtain ⟨x', l', rfl, h1, h2⟩ := List.map_eq_cons_iff.1 h.symm
    cases x with
    | eps =>
      obtain rfl := ren_eps (k := k) h1.symm
      rw [ih h2.symm (by simpa [notEps, List.filter_cons] using hf)]
    | var v =>
      have h3 : x' = .var v := ren_var (k := k) h1.symm
      subst h3
      rw [ih h2.symm (by simpa [notEps, List.filter_cons] using hf)]
    | term t =>
      obtain ⟨u, rfl, _⟩ := ren_term (k := k) h1.symm
      simp only [notEps, List.filter_cons, if_true, List.cons.injEq] at hf
      rw [hf.1, ih h2.symm hf.2]

omit [TerminalEq T] [LawfulTerminalEq T] in
theorem read_eq {γ : List (Sym V T)} {h : V} {i i' : Item V T} (hv : Viable g γ (h, i)) (hv' : Viable g γ (h, i'))
    (hb : i.body.map (ren k) = i'.body.map (ren k)) (hc : i.cursor = i'.cursor) : i.read = i'.read := by
  obtain ⟨γ1, h1, _⟩ := viable_split hv
  obtain ⟨γ2, h2, _⟩ := viable_split hv'
  have hcount : ∀ l : List (Sym V T), (l.filter notEps).length = ((l.map (ren k)).filter notEps).length := by
    intro l
    induction l with
    | nil => rfl
    | cons x l ih => cases x <;> simp [notEps, Sym.rename, List.filter_cons, ih]
  refine (List.append_inj' (h1.symm.trans h2) ?_).2
  rw [Item.read, Item.read, hcount (List.take i.cursor _), hcount (List.take i'.cursor _), List.map_take, List.map_take,
    hb, hc]

omit [LawfulTerminalEq T] in
/-- Items behind the same string that are the same but for values have the same body. -/
theorem body_eq (hk : ∀ t u, k t = k u → teq t u = true) (ha : ValuesApart g) (n : Nat) :
    ∀ {γ : List (Sym V T)} {h : V} {i i' : Item V T}, Viable g γ (h, i) → Viable g γ (h, i') →
      i.body.map (ren k) = i'.body.map (ren k) → i.cursor = i'.cursor → i.body.length - i.cursor ≤ n →
      i.body = i'.body := by
  induction n with
  | zero =>
    intro γ h i i' hv hv' hb hc hn
    have hl : i.body.length = i'.body.length := by simpa using congrArg List.length hb
    have hr := read_eq hv hv' hb hc
    rw [Item.read, Item.read, List.take_of_length_le (by omega), List.take_of_length_le (by omega)] at hr
    exact eq_of_map_filter hb hr
  | succ n ih =>
    intro γ h i i' hv hv' hb hc hn
    have hl : i.body.length = i'.body.length := by simpa using congrArg List.length hb
    by_cases hlt : i.cursor < i.body.length
    · obtain ⟨x, hx⟩ : ∃ x, Reads i x := ⟨_, reads_iff.2 (List.getElem?_eq_getElem hlt)⟩
      have he : renameItem id k i = renameItem id k i' := by simp [renameItem, hb, hc]
      have hx' := hx.rename (f := id) (k := k)
      rw [he] at hx'
      obtain ⟨y, hy, hr⟩ := hx'.lift
      have hxy : y = x := by
        cases x with
        | var v => exact ren_var hy
        | eps => exact ren_eps hy
        | term t =>
          obtain ⟨u, rfl, hu⟩ := ren_term hy
          rw [ha _ _ _ _ _ (.shift hv hx) (.shift hv' hr) (hk _ _ hu)]
      subst hxy
      have h1 := (advanced_iff.1 (hx.advanced.rename (f := id) (k := k))).2
      have h2 := (advanced_iff.1 (hr.advanced.rename (f := id) (k := k))).2
      rw [he, ← h2] at h1
      obtain ⟨h3, pre, m, rest, _, _, h4, h5⟩ := hx.advanced
      obtain ⟨h6, _⟩ := hr.advanced
      have := ih (.read hv hx.advanced) (.read hv' hr.advanced) (by rw [h3, h6, hb])
        (by simpa [renameItem] using (Item.mk.injEq .. ▸ h1).2) (by rw [h3, h5]; omega)
      rwa [h3, h6] at this
    · have hr := read_eq hv hv' hb hc
      rw [Item.read, Item.read, List.take_of_length_le (by omega), List.take_of_length_le (by omega)] at hr
      exact eq_of_map_filter hb hr

omit [LawfulTerminalEq T] in
theorem item_eq (hk : ∀ t u, k t = k u → teq t u = true) (ha : ValuesApart g) {γ : List (Sym V T)}
    {p p' : V × Item V T} (hv : Viable g γ p) (hv' : Viable g γ p') (he : renP k p = renP k p') : p = p' := by
  obtain ⟨h, b, c⟩ := p
  obtain ⟨h', b', c'⟩ := p'
  simp only [renP, renameItem, Prod.mk.injEq, Item.mk.injEq] at he
  obtain ⟨rfl, hb, rfl⟩ := he
  have : b = b' := body_eq hk ha _ hv hv' hb rfl (Nat.le_refl _)
  rw [this]

omit [LawfulTerminalEq T] in
theorem needs (m : Merges k g g') {a : Prop} {γ : List (Sym V T)} {p : V × Item V T} {o : Option T}
    (h : Needs g a γ p o) : Needs g' a (γ.map (ren k)) (renP k p) (o.map k) := by
  cases h with
  | shift hv hr => exact .shift (m.viable hv) (hr.rename (f := id) (k := k))
  | reduce hv hc hfo => exact .reduce (m.viable hv) hc.rename (m.inFollow hfo)
  | accept hv hc ha =>
    have hv := m.viable hv
    have := Needs.accept (accepts := a) (i := renameItem id k _) (by rw [m.start]; exact hv) hc.rename ha
    rw [m.start] at this
    exact this

theorem fits_iff (m : Merges k g g') {a : Prop} : Fits g a ↔ Fits g' a ∧ ValuesApart g := by
  have hk : ∀ t u, k t = k u → teq t u = true := fun t u h =>
    LawfulTerminalEq.trans _ _ _ (h ▸ m.kind t) (LawfulTerminalEq.symm _ _ (m.kind u))
  have hmono : ∀ {γ p} {t : T}, Needs g a γ p (some t) ↔ Needs g False γ p (some t) := by
    intro γ p t
    constructor
    · intro h
      cases h with
      | shift h1 h2 => exact .shift h1 h2
      | reduce h1 h2 h3 => exact .reduce h1 h2 h3
    · intro h
      cases h with
      | shift h1 h2 => exact .shift h1 h2
      | reduce h1 h2 h3 => exact .reduce h1 h2 h3
  constructor
  · intro hf
    refine ⟨m.fits hf, fun γ p p' t t' h h' ht => ?_⟩
    exact Option.some.inj (hf γ p p' _ _ (hmono.2 h) (hmono.2 h') ht).2
  · rintro ⟨hf, ha⟩ γ p p' o o' h h' ho
    obtain ⟨h1, _⟩ := hf _ _ _ _ _ (m.needs h) (m.needs h') (by
      rw [keyEq_kind m.kind]
      cases o <;> cases o'
      · rfl
      · cases ho
      · cases ho
      · exact LawfulTerminalEq.trans _ _ _ ho (m.kind _))
    refine ⟨item_eq hk ha h.viable h'.viable h1, ?_⟩
    cases o with
    | none => cases o' with
      | none => rfl
      | some _ => cases ho
    | some t => cases o' with
      | none => cases ho
      | some t' => rw [ha _ _ _ _ _ (hmono.1 h) (hmono.1 h') ho]

/-! ## The machine -/

/-- The same configuration, where only the symbols on the stack differ. -/
def conf (k : T → T) (x : Config V T) : Config V T := ⟨x.syms.map (ren k), x.trees, x.input⟩

theorem shiftReduce (m : Merges k g g') {x y : Config V T} (h : ShiftReduce g x y) :
    ShiftReduce g' (conf k x) (conf k y) ∧ ∃ q, Viable g y.syms q := by
  have hteq : ∀ {t u}, teq t u = true → teq (k t) u = true := fun {t u} h =>
    LawfulTerminalEq.trans _ _ _ (LawfulTerminalEq.symm _ _ (m.kind t)) h
  cases h with
  | @shift γ ns h i t u w hv hr ht =>
    refine ⟨?_, _, .read hv hr.advanced⟩
    have := ShiftReduce.shift (ns := ns) (w := w) (m.viable hv) (hr.rename (f := id) (k := k)) (hteq ht)
    simpa [conf, Sym.rename] using this
  | @reduce γ ρ ns h h' i i' t u w hv hc hfo ht hl hv' hr =>
    refine ⟨?_, _, .read hv' hr.advanced⟩
    have hv := m.viable hv
    rw [List.map_append] at hv
    have := ShiftReduce.reduce (ns := ns) (w := w) hv hc.rename (m.inFollow hfo) (hteq ht)
      (by simpa [renameItem] using hl) (m.viable hv') (hr.rename (f := id) (k := k))
    simpa [conf, Sym.rename, renP, renameItem] using this

theorem shiftReduces (m : Merges k g g') {n : Nat} {x y : Config V T} (h : ShiftReduces g n x y)
    (hx : ∃ q, Viable g x.syms q) : ShiftReduces g' n (conf k x) (conf k y) ∧ ∃ q, Viable g y.syms q := by
  induction h with
  | refl => exact ⟨.refl, hx⟩
  | step hs _ ih =>
    obtain ⟨h1, h2⟩ := m.shiftReduce hs
    obtain ⟨h3, h4⟩ := ih h2
    exact ⟨.step h1 h3, h4⟩

omit [TerminalEq T] [LawfulTerminalEq T] in
theorem alive_prefix {γ ρ : List (Sym V T)} (h : ∃ q, Viable g (γ ++ ρ) q) : ∃ q, Viable g γ q := by
  generalize hn : ρ.length = n
  induction n generalizing ρ with
  | zero =>
    obtain rfl := List.length_eq_zero_iff.1 hn
    simpa using h
  | succ n ih =>
    obtain ⟨q, h⟩ := h
    obtain ⟨ρ', x, rfl⟩ : ∃ ρ' x, ρ = ρ' ++ [x] :=
      ⟨ρ.dropLast, ρ.getLast (by rintro rfl; cases hn), (List.dropLast_concat_getLast _).symm⟩
    rw [← List.append_assoc] at h
    obtain ⟨q, h, _⟩ := Viable_snoc h
    exact ih ⟨q, h⟩ (by simpa using hn)

theorem halts (m : Merges k g g') {a : Prop} (hf : Fits g a) {x : Config V T} {s : Halt V T} (h : Halts g a x s)
    (hx : ∃ q, Viable g x.syms q) : Halts g' a (conf k x) s := by
  have hteq : ∀ {t u}, teq t u = true → teq (k t) u = true := fun {t u} h =>
    LawfulTerminalEq.trans _ _ _ (LawfulTerminalEq.symm _ _ (m.kind t)) h
  cases h with
  | noAction h =>
    refine .noAction fun p' o' hn => ?_
    obtain ⟨p, o, rfl, rfl, hn'⟩ := m.needs_back hf hn hx
    rw [keyEq_kind m.kind]
    exact h _ _ hn'
  | @noGoto γ ρ ns h i t u w hv hc hfo ht hl hno =>
    have hγ := alive_prefix ⟨_, hv⟩
    have hv := m.viable hv
    rw [List.map_append] at hv
    have := Halts.noGoto (accepts := a) (ns := ns) (w := w) hv hc.rename (m.inFollow hfo) (hteq ht)
      (by simpa [renameItem] using hl) (fun q' hq' hr => by
        obtain ⟨q, rfl, hq⟩ := m.viable_back hf hq' γ rfl hγ
        obtain ⟨y, hy, hr⟩ := hr.lift
        obtain rfl := ren_var hy
        exact hno _ hq hr)
    simpa [conf] using this
  | @accept γ ns i hv hc ha hl =>
    have hv := m.viable hv
    rw [renP, ← m.start] at hv
    have := Halts.accept (ns := ns) hv hc.rename ha (by simpa [renameItem] using hl)
    simpa [conf, renameItem, m.start] using this
  | reduceUnder hv hc hfo ht hl =>
    exact .reduceUnder (m.viable hv) hc.rename (m.inFollow hfo) (hteq ht) (by simpa [renameItem] using hl)
  | acceptUnder hv hc ha hl =>
    have hv := m.viable hv
    rw [renP, ← m.start] at hv
    exact .acceptUnder hv hc.rename ha (by simpa [renameItem] using hl)

theorem shiftReduce_back (m : Merges k g g') {a : Prop} (hf : Fits g a) {x y' : Config V T}
    (h : ShiftReduce g' (conf k x) y') (hx : ∃ q, Viable g x.syms q) : ∃ y, y' = conf k y ∧ ShiftReduce g x y := by
  have hteq : ∀ {t u}, teq (k t) u = true → teq t u = true := fun {t u} h =>
    LawfulTerminalEq.trans _ _ _ (m.kind t) h
  obtain ⟨γ, ns, w⟩ := x
  generalize hc : conf k ⟨γ, ns, w⟩ = x' at h
  cases h with
  | @shift γ' ns' h i t u w' hv hr ht =>
    simp only [conf, Config.mk.injEq] at hc
    obtain ⟨rfl, rfl, rfl⟩ := hc
    obtain ⟨⟨h, i⟩, he, hv'⟩ := m.viable_back hf hv γ rfl hx
    obtain ⟨rfl, rfl⟩ := Prod.mk.injEq .. ▸ he
    obtain ⟨y, hy, hr'⟩ := hr.lift
    obtain ⟨t, rfl, rfl⟩ := ren_term hy
    exact ⟨_, by simp [conf, Sym.rename], .shift hv' hr' (hteq ht)⟩
  | @reduce γ' ρ' ns' h h' i i' t u w' hv hco hfo ht hl hv' hr =>
    simp only [conf, Config.mk.injEq] at hc
    obtain ⟨hγ, rfl, rfl⟩ := hc
    obtain ⟨γ, ρ, rfl, rfl, rfl⟩ := List.map_eq_append_iff.1 hγ
    obtain ⟨⟨h, i⟩, he, hv1⟩ := m.viable_back hf hv (γ ++ ρ) (by simp) hx
    obtain ⟨rfl, rfl⟩ := Prod.mk.injEq .. ▸ he
    obtain ⟨⟨h', i'⟩, he, hv2⟩ := m.viable_back hf hv' γ rfl (alive_prefix hx)
    obtain ⟨rfl, rfl⟩ := Prod.mk.injEq .. ▸ he
    obtain ⟨y, hy, hr'⟩ := hr.lift
    obtain rfl := ren_var hy
    obtain ⟨t, rfl, hfo'⟩ := m.inFollow_back hfo
    refine ⟨_, ?_, .reduce hv1 hco.lift hfo' (hteq ht) (by simpa [renameItem] using hl) hv2 hr'⟩
    simp [conf, Sym.rename, renameItem]

theorem shiftReduces_back (m : Merges k g g') {a : Prop} (hf : Fits g a) {n : Nat} {x y' : Config V T}
    (h : ShiftReduces g' n (conf k x) y') (hx : ∃ q, Viable g x.syms q) :
    ∃ y, y' = conf k y ∧ ShiftReduces g n x y ∧ ∃ q, Viable g y.syms q := by
  generalize hc : conf k x = x' at h
  induction h generalizing x with
  | refl => exact ⟨x, hc.symm, .refl, hx⟩
  | step hs _ ih =>
    subst hc
    obtain ⟨y, rfl, h1⟩ := m.shiftReduce_back hf hs hx
    obtain ⟨z, rfl, h2, h3⟩ := ih (m.shiftReduce h1).2 rfl
    exact ⟨z, rfl, .step h1 h2, h3⟩

theorem halts_back (m : Merges k g g') {a : Prop} (hf : Fits g a) {x : Config V T} {s : Halt V T}
    (h : Halts g' a (conf k x) s) (hx : ∃ q, Viable g x.syms q) : Halts g a x s := by
  have hteq : ∀ {t u}, teq (k t) u = true → teq t u = true := fun {t u} h =>
    LawfulTerminalEq.trans _ _ _ (m.kind t) h
  obtain ⟨γ, ns, w⟩ := x
  generalize hc : conf k ⟨γ, ns, w⟩ = x' at h
  cases h with
  | noAction h =>
    simp only [conf, Config.mk.injEq] at hc
    obtain ⟨rfl, rfl, rfl⟩ := hc
    refine .noAction fun p o hn => ?_
    rw [← keyEq_kind m.kind]
    exact h _ _ (m.needs hn)
  | @noGoto γ' ρ' ns' h i t u w' hv hco hfo ht hl hno =>
    simp only [conf, Config.mk.injEq] at hc
    obtain ⟨hγ, rfl, rfl⟩ := hc
    obtain ⟨γ, ρ, rfl, rfl, rfl⟩ := List.map_eq_append_iff.1 hγ
    obtain ⟨⟨h, i⟩, he, hv1⟩ := m.viable_back hf hv (γ ++ ρ) (by simp) hx
    obtain ⟨rfl, rfl⟩ := Prod.mk.injEq .. ▸ he
    obtain ⟨t, rfl, hfo'⟩ := m.inFollow_back hfo
    exact .noGoto hv1 hco.lift hfo' (hteq ht) (by simpa [renameItem] using hl)
      fun q hq hr => hno _ (m.viable hq) (hr.rename (f := id) (k := k))
  | @accept γ' ns' i hv hco ha hl =>
    simp only [conf, Config.mk.injEq] at hc
    obtain ⟨rfl, rfl, rfl⟩ := hc
    obtain ⟨⟨h, i⟩, he, hv1⟩ := m.viable_back hf hv γ rfl hx
    obtain ⟨rfl, rfl⟩ := Prod.mk.injEq .. ▸ he
    have hv1 : Viable g γ (g'.start, i) := hv1
    rw [m.start] at hv1 ⊢
    simpa [renameItem] using Halts.accept (ns := ns) hv1 hco.lift ha (by simpa [renameItem] using hl)
  | reduceUnder hv hco hfo ht hl =>
    simp only [conf, Config.mk.injEq] at hc
    obtain ⟨rfl, rfl, rfl⟩ := hc
    obtain ⟨⟨h, i⟩, he, hv1⟩ := m.viable_back hf hv γ rfl hx
    obtain ⟨rfl, rfl⟩ := Prod.mk.injEq .. ▸ he
    obtain ⟨t, rfl, hfo'⟩ := m.inFollow_back hfo
    exact .reduceUnder hv1 hco.lift hfo' (hteq ht) (by simpa [renameItem] using hl)
  | acceptUnder hv hco ha hl =>
    simp only [conf, Config.mk.injEq] at hc
    obtain ⟨rfl, rfl, rfl⟩ := hc
    obtain ⟨⟨h, i⟩, he, hv1⟩ := m.viable_back hf hv γ rfl hx
    obtain ⟨rfl, rfl⟩ := Prod.mk.injEq .. ▸ he
    have hv1 : Viable g γ (g'.start, i) := hv1
    rw [m.start] at hv1
    exact .acceptUnder hv1 hco.lift ha (by simpa [renameItem] using hl)

theorem machineRun_iff (m : Merges k g g') (hs : ∃ β, (g.start, β) ∈ g.rules) {a : Prop} (hf : Fits g a) {w : List T}
    {n : Nat} {s : Halt V T} : MachineRun g a w n s ↔ MachineRun g' a w n s := by
  obtain ⟨β, hβ⟩ := hs
  have hx : ∃ q, Viable g (Config.start (V := V) w).syms q := ⟨_, .start hβ (fresh_iff.2 rfl)⟩
  constructor
  · rintro ⟨c, h1, h2⟩
    obtain ⟨h3, h4⟩ := m.shiftReduces h1 hx
    exact ⟨conf k c, h3, m.halts hf h2 h4⟩
  · rintro ⟨c, h1, h2⟩
    obtain ⟨c, rfl, h3, h4⟩ := m.shiftReduces_back hf (x := .start w) h1 hx
    exact ⟨c, h3, m.halts_back hf h2 h4⟩

theorem steps_iff (m : Merges k g g') (hs : ∃ β, (g.start, β) ∈ g.rules) {a : Prop} (hf : Fits g a) {w : List T}
    {n : Nat} : (∃ x, ShiftReduces g n (.start w) x) ↔ ∃ x, ShiftReduces g' n (.start w) x := by
  obtain ⟨β, hβ⟩ := hs
  have hx : ∃ q, Viable g (Config.start (V := V) w).syms q := ⟨_, .start hβ (fresh_iff.2 rfl)⟩
  constructor
  · rintro ⟨c, h1⟩
    exact ⟨conf k c, (m.shiftReduces h1 hx).1⟩
  · rintro ⟨c, h1⟩
    obtain ⟨c, rfl, h3, _⟩ := m.shiftReduces_back hf (x := .start w) h1 hx
    exact ⟨c, h3⟩

end Merges

/-! ## Choosing values -/

variable [TerminalEq T] [LawfulTerminalEq T]

/-- One terminal for each kind. -/
theorem exists_choice : ∃ k : T → T, (∀ t, teq t (k t) = true) ∧ ∀ t u, teq t u = true → k t = k u := by
  have hex : ∀ t : T, ∃ u, teq t u = true := fun t => ⟨t, LawfulTerminalEq.refl t⟩
  refine ⟨fun t => Classical.choose (hex t), fun t => Classical.choose_spec (hex t), fun t u h => ?_⟩
  have hp : (fun s => teq t s = true) = fun s => teq u s = true := by
    funext s
    exact propext ⟨fun h' => LawfulTerminalEq.trans _ _ _ (LawfulTerminalEq.symm _ _ h) h',
      fun h' => LawfulTerminalEq.trans _ _ _ h h'⟩
  have : ∀ (p q : T → Prop) (hp : ∃ s, p s) (hq : ∃ s, q s), p = q → Classical.choose hp = Classical.choose hq := by
    intro p q hp hq e
    subst e
    rfl
  exact this _ _ _ _ hp

omit [LawfulTerminalEq T] in
theorem SameKinds.map {k : T → T} (hk : ∀ t u, teq t u = true → k t = k u) {β β' : Body V T} (h : SameKinds β β') :
    β.map (ren k) = β'.map (ren k) := by
  induction h with
  | nil => rfl
  | eps _ ih => simp [ih, Sym.rename]
  | var _ ih => simp [ih, Sym.rename]
  | term h _ ih => simp [ih, Sym.rename, hk _ _ h]

omit [LawfulTerminalEq T] in
/-- Both grammars are merged to the same one. -/
theorem SameButValues.merges {k : T → T} (hk : ∀ t, teq t (k t) = true) (hk' : ∀ t u, teq t u = true → k t = k u)
    (h : SameButValues g g') : ∃ g0, Merges k g g0 ∧ Merges k g' g0 := by
  refine ⟨g.rename id k, ⟨hk, rfl, fun v β' => ⟨fun hr => ?_, ?_⟩⟩, ⟨hk, h.start, fun v β' => ⟨fun hr => ?_, ?_⟩⟩⟩
  · obtain ⟨_, β, rfl, rfl, hr'⟩ := renamed_rule hr
    exact ⟨β, hr', rfl⟩
  · rintro ⟨β, hr, rfl⟩
    exact rename_rule (f := id) hr
  · obtain ⟨_, β, rfl, rfl, hr'⟩ := renamed_rule hr
    obtain ⟨β', hr', hs⟩ := h.there _ _ hr'
    exact ⟨β', hr', hs.map hk'⟩
  · rintro ⟨β', hr', rfl⟩
    obtain ⟨β, hr, hs⟩ := h.back _ _ hr'
    rw [← hs.map hk']
    exact rename_rule (f := id) hr

/-- The values of a grammar with one value for each kind. -/
theorem OneValue.choice (h : OneValue g') : ∃ k : T → T, (∀ t, teq t (k t) = true) ∧
    (∀ t u, teq t u = true → k t = k u) ∧ ∀ v β t, (v, β) ∈ g'.rules → .term t ∈ β → k t = t := by
  classical
  obtain ⟨k, h1, h2⟩ := exists_choice (T := T)
  let P (t u : T) : Prop := teq t u = true ∧ ∃ v β, (v, β) ∈ g'.rules ∧ .term u ∈ β
  have hP : ∀ t t' u u', teq t t' = true → P t u → P t' u' → u = u' := by
    rintro t t' u u' ht ⟨h3, v, β, h4, h5⟩ ⟨h6, v', β', h7, h8⟩
    refine h _ _ _ _ _ _ h4 h5 h7 h8 ?_
    exact LawfulTerminalEq.trans _ _ _ (LawfulTerminalEq.symm _ _ h3) (LawfulTerminalEq.trans _ _ _ ht h6)
  refine ⟨fun t => if hx : ∃ u, P t u then hx.choose else k t, fun t => ?_, fun t u htu => ?_, fun v β t hr ht => ?_⟩
  · change teq t (dite _ _ _) = true
    split
    · rename_i hx
      exact hx.choose_spec.1
    · exact h1 t
  · change dite _ _ _ = dite _ _ _
    have hsym := LawfulTerminalEq.symm _ _ htu
    split
    · rename_i hx
      have hy : ∃ s, P u s := ⟨hx.choose, LawfulTerminalEq.trans _ _ _ hsym hx.choose_spec.1, hx.choose_spec.2⟩
      rw [dif_pos hy]
      exact hP _ _ _ _ htu hx.choose_spec hy.choose_spec
    · rename_i hx
      have hy : ¬ ∃ s, P u s := fun ⟨s, hs⟩ => hx ⟨s, LawfulTerminalEq.trans _ _ _ htu hs.1, hs.2⟩
      rw [dif_neg hy]
      exact h2 _ _ htu
  · have hx : ∃ u, P t u := ⟨t, LawfulTerminalEq.refl t, v, β, hr, ht⟩
    change dite _ _ _ = _
    rw [dif_pos hx]
    exact (hP _ _ _ _ (LawfulTerminalEq.refl t) ⟨LawfulTerminalEq.refl t, v, β, hr, ht⟩ hx.choose_spec).symm

/-- A grammar is merged to every other one that has one value for each kind. -/
theorem SameButValues.merges_one (h : SameButValues g g') (ho : OneValue g') : ∃ k, Merges k g g' := by
  obtain ⟨k, h1, h2, h3⟩ := ho.choice
  have hfix : ∀ v β, (v, β) ∈ g'.rules → β.map (ren k) = β := by
    intro v β hr
    conv => rhs; rw [← List.map_id β]
    refine List.map_congr_left fun x hx => ?_
    cases x with
    | term t => simp [Sym.rename, h3 v β t hr hx]
    | _ => rfl
  refine ⟨k, h1, h.start.symm, fun v β' => ⟨fun hr => ?_, ?_⟩⟩
  · obtain ⟨β, hr', hs⟩ := h.back _ _ hr
    exact ⟨β, hr', by rw [hs.map h2, hfix _ _ hr]⟩
  · rintro ⟨β, hr, rfl⟩
    obtain ⟨β', hr', hs⟩ := h.there _ _ hr
    rw [hs.map h2, hfix _ _ hr']
    exact hr'

end Pango.Spec
