import Verif.Proofs.Handle

/-!
# Which iteration orders give the start variable a FOLLOW set

An empty FOLLOW set is passed on to the variables that depend on it only if it is there when the dependency is looked
at, and a dependency on an empty set is looked at once.  So the order of the dependencies decides.
-/

namespace Pango.Parse

open Pango Pango.Spec

/-- Any rearrangement of a list is one of its iteration orders, and the order looks at positions only. -/
theorem exists_shuffle {α : Type} {l l' : List α} (h : l'.Perm l) :
    ∃ f : (β : Type) → List β → List β, (∀ β m, (f β m).Perm m) ∧ f α l = l' ∧
      ∀ (β γ : Type) (k : β → γ) m, f γ (m.map k) = (f β m).map k := by
  replace h := h.symm
  induction h with
  | nil => exact ⟨fun _ m => m, fun _ m => List.Perm.refl m, rfl, fun _ _ _ _ => rfl⟩
  | @cons x l l' _ ih =>
    obtain ⟨f, h1, h2, h3⟩ := ih
    refine ⟨fun β m => match m with
      | [] => []
      | a :: r => a :: f β r, fun β m => ?_, ?_, fun β γ k m => ?_⟩
    · cases m with
      | nil => exact List.Perm.refl _
      | cons a r => exact (h1 β r).cons a
    · simp [h2]
    · cases m with
      | nil => rfl
      | cons a r => simp [h3]
  | swap x y l =>
    refine ⟨fun β m => match m with
      | a :: b :: r => b :: a :: r
      | m => m, fun β m => ?_, ?_, fun β γ k m => ?_⟩
    · match m with
      | [] => exact List.Perm.refl _
      | [a] => exact List.Perm.refl _
      | a :: b :: r => exact List.Perm.swap a b r
    · rfl
    · match m with
      | [] => rfl
      | [a] => rfl
      | a :: b :: r => rfl
  | trans _ _ ih1 ih2 =>
    obtain ⟨f, h1, h2, h3⟩ := ih1
    obtain ⟨f', h1', h2', h3'⟩ := ih2
    exact ⟨fun β m => f' β (f β m), fun β m => (h1' β _).trans (h1 β m), by simp only [h2, h2'],
      fun β γ k m => by simp only [h3, h3']⟩

/-- Orders of the iterations at one place; everywhere else in insertion order. -/
def orderAt (key : List Nat) (f : (β : Type) → List β → List β) (hf : ∀ β m, (f β m).Perm m) : HashOrder :=
  ⟨fun now β m => if now = key then f β m else m, fun now β m => by
    split
    · exact hf β m
    · exact List.Perm.refl m⟩

/-- The orders at step `a` are given; everywhere else in insertion order. -/
def orderUnder (a : Nat) (ord : HashOrder) : HashOrder :=
  ⟨fun now β m => match now with
    | x :: now => if x = a then ord.shuffle now β m else m
    | _ => m, fun now β m => by
    split
    · split
      · exact ord.perm _ β m
      · exact List.Perm.refl m
    · exact List.Perm.refl m⟩

theorem orderUnder_sub (a : Nat) (ord : HashOrder) : (orderUnder a ord).sub a = ord := by
  obtain ⟨s, p⟩ := ord
  simp [orderUnder, HashOrder.sub]

theorem orderUnder_sub_ne {a b : Nat} (h : b ≠ a) (ord : HashOrder) : (orderUnder a ord).sub b = .insertion := by
  simp [orderUnder, HashOrder.sub, HashOrder.insertion, h]

/-- The orders below a place are given; everywhere else in insertion order. -/
def orderBelow (a b : Nat) (ord : HashOrder) : HashOrder :=
  ⟨fun now β m => match now with
    | x :: y :: now => if x = a ∧ y = b then ord.shuffle now β m else m
    | _ => m, fun now β m => by
    split
    · split
      · exact ord.perm _ β m
      · exact List.Perm.refl m
    · exact List.Perm.refl m⟩

theorem orderBelow_sub (a b : Nat) (ord : HashOrder) : ((orderBelow a b ord).sub a).sub b = ord := by
  obtain ⟨s, p⟩ := ord
  simp [orderBelow, HashOrder.sub]

/-- The keys of a map of sets can be iterated in any order. -/
theorem exists_grouped {α κ : Type} [DecidableEq κ] (key : α → κ) (l : List α) {ks : List κ} (hn : ks.Nodup)
    (hk : ∀ k, k ∈ ks ↔ ∃ a ∈ l, key a = k) :
    ∃ f : (β : Type) → List β → List β, ∃ hf : ∀ β m, (f β m).Perm m,
      (orderAt [0] f hf).grouped key l = ks.flatMap fun k => l.filter fun a => key a = k := by
  have hp : ks.Perm (extendSet [] (l.map key)) := by
    refine (List.perm_ext_iff_of_nodup hn (nodup_extendSet List.nodup_nil)).2 fun k => ?_
    rw [hk, mem_extendSet]
    simp
  obtain ⟨f, h1, h2, h3⟩ := exists_shuffle hp
  refine ⟨f, h1, ?_⟩
  have h4 := h3 _ _ Prod.fst (extendSet [] (l.map key)).zipIdx
  rw [List.zipIdx_map_fst, h2] at h4
  rw [h4, List.flatMap_map]
  simp [HashOrder.grouped, orderAt]

variable {V T : Type} [DecidableEq V] [DecidableEq T] {g : Grammar V T}

/-! ## The loop -/

/-- Variables each of which depends on the one before; the last of them is not in the list. -/
inductive DepPath (deps : List (V × List V)) : V → List V → V → Prop
  | nil {v : V} : DepPath deps v [] v
  | cons {u v w : V} {p : List V} : v ∈ getSet deps u → DepPath deps v p w → DepPath deps u (u :: p) w

theorem DepPath.mem {deps : List (V × List V)} {u w : V} {p : List V} (h : DepPath deps u p w) :
    ∀ a ∈ p, ∃ b, b ∈ getSet deps a := by
  induction h with
  | nil => intro a h; cases h
  | cons h1 _ ih =>
    intro a h
    rcases List.mem_cons.1 h with h | h
    · cases h; exact ⟨_, h1⟩
    · exact ih a h

theorem DepPath.append {deps : List (V × List V)} {u v w : V} {p q : List V} (h : DepPath deps u p v)
    (h' : DepPath deps v q w) : DepPath deps u (p ++ q) w := by
  induction h with
  | nil => exact h'
  | cons h1 _ ih => exact .cons h1 (ih h')

theorem DepPath.drop {deps : List (V × List V)} {u s w : V} {q : List V} (h : DepPath deps s q w)
    (hm : u ∈ q) : DepPath deps u (q.dropWhile (fun e => e ≠ u)) w := by
  induction h with
  | nil => cases hm
  | @cons a b c p h1 h2 ih =>
    by_cases he : a = u
    · cases he
      rw [List.dropWhile_cons_of_neg (by simp)]
      exact .cons h1 h2
    · rw [List.dropWhile_cons_of_pos (by exact decide_eq_true he)]
      rcases List.mem_cons.1 hm with h | h
      · exact absurd h.symm he
      · exact ih h

/-- Parts of a path can be left out so that no variable is on it twice. -/
theorem DepPath.nodup {deps : List (V × List V)} {u w : V} {p : List V} (h : DepPath deps u p w) :
    ∃ q, DepPath deps u q w ∧ q.Nodup := by
  generalize hn : p.length = n
  induction n using Nat.strongRecOn generalizing p u with
  | ind n ih =>
    cases h with
    | nil => exact ⟨[], .nil, List.nodup_nil⟩
    | @cons u v w p h1 h2 =>
      obtain ⟨q, h3, h4⟩ := ih p.length (by simp at hn; omega) h2 rfl
      by_cases hm : u ∈ q
      · refine ⟨q.dropWhile (fun e => e ≠ u), ?_, h4.sublist (List.dropWhile_sublist _)⟩
        exact h3.drop hm
      · exact ⟨u :: q, .cons h1 h3, List.nodup_cons.2 ⟨hm, h4⟩⟩

/-- After some dependencies were looked at, the variables that depend on one with an entry have one. -/
theorem followLoop_front {deps : List (V × List V)} :
    ∀ {first : List (V × V)} (ord : HashOrder) {n : Nat} {rest : List (V × V)} {result r : List (V × List (Sym V T))},
    followLoop deps ord n (first ++ rest) result = .ok r →
    ∃ ord' n' more result', followLoop deps ord' n' (rest ++ more) result' = .ok r ∧
      (∀ k, (mapGet result k).isSome → (mapGet result' k).isSome) ∧
      (∀ a b, (a, b) ∈ first → (mapGet result b).isSome → (mapGet result' a).isSome) := by
  intro first
  induction first with
  | nil => exact fun ord n rest result r h => ⟨ord, n, [], result, by simpa using h, fun _ h => h, by simp⟩
  | cons e first ih =>
    intro ord n rest result r h
    obtain ⟨a, b⟩ := e
    cases n with
    | zero => cases h
    | succ n =>
      rw [List.cons_append, followLoop] at h
      cases hb : mapGet result b with
      | none =>
        simp only [hb] at h
        obtain ⟨ord', n', more, result', h1, h2, h3⟩ := ih (ord.sub 1) h
        refine ⟨ord', n', more, result', h1, h2, fun c d hcd hd => ?_⟩
        rcases List.mem_cons.1 hcd with hcd | hcd
        · cases hcd; rw [hb] at hd; cases hd
        · exact h3 c d hcd hd
      | some f =>
        simp only [hb] at h
        have hmono : ∀ new k, (mapGet result k).isSome → (mapGet (mapSet result a new) k).isSome := by
          intro new k hk
          rw [mapGet_mapSet]
          split
          · rfl
          · exact hk
        have hnew : ∀ new, (mapGet (mapSet result a new) a).isSome := by
          intro new; rw [mapGet_mapSet]; simp
        split at h
        · rw [List.append_assoc] at h
          obtain ⟨ord', n', more, result', h1, h2, h3⟩ := ih (ord.sub 1) h
          refine ⟨ord', n', _ ++ more, result', by rw [← List.append_assoc]; exact h1, fun k hk => h2 k (hmono _ k hk),
            fun c d hcd hd => ?_⟩
          rcases List.mem_cons.1 hcd with hcd | hcd
          · cases hcd; exact h2 _ (hnew _)
          · exact h3 c d hcd (hmono _ d hd)
        · obtain ⟨ord', n', more, result', h1, h2, h3⟩ := ih (ord.sub 1) h
          refine ⟨ord', n', more, result', h1, fun k hk => h2 k (hmono _ k hk), fun c d hcd hd => ?_⟩
          rcases List.mem_cons.1 hcd with hcd | hcd
          · cases hcd; exact h2 _ (hnew _)
          · exact h3 c d hcd (hmono _ d hd)

/-- If the dependencies on the variables of a path are looked at first and in their order, its end gets an entry. -/
theorem followLoop_path {deps : List (V × List V)} {group : V → List (V × V)}
    (hgroup : ∀ a b, a ∈ getSet deps b → (a, b) ∈ group b) {u w : V} {p : List V}
    (hp : DepPath deps u p w) : ∀ (ord : HashOrder) {n : Nat} {rest : List (V × V)} {result r : List (V × List (Sym V T))},
    followLoop deps ord n (p.flatMap group ++ rest) result = .ok r → (mapGet result u).isSome →
    (mapGet r w).isSome := by
  induction hp with
  | @nil v =>
    intro ord n rest result r h hu
    exact followLoop_entry ord (k := v) h (.inl hu)
  | @cons u v w p h1 h2 ih =>
    intro ord n rest result r h hu
    rw [List.flatMap_cons, List.append_assoc] at h
    obtain ⟨ord', n', more, result', h3, _, h4⟩ := followLoop_front ord h
    rw [List.append_assoc] at h3
    exact ih ord' h3 (h4 v u (hgroup v u h1) hu)

/-- Dependencies on variables without an entry change nothing. -/
theorem followLoop_skip {deps : List (V × List V)} {result : List (V × List (Sym V T))} :
    ∀ {first : List (V × V)} (ord : HashOrder) {n : Nat} {rest : List (V × V)} {r : List (V × List (Sym V T))},
    (∀ a b, (a, b) ∈ first → mapGet result b = none) → followLoop deps ord n (first ++ rest) result = .ok r →
    ∃ ord' n', followLoop deps ord' n' rest result = .ok r := by
  intro first
  induction first with
  | nil => exact fun ord n rest r _ h => ⟨ord, n, h⟩
  | cons e first ih =>
    intro ord n rest r hn h
    obtain ⟨a, b⟩ := e
    cases n with
    | zero => cases h
    | succ n =>
      rw [List.cons_append, followLoop] at h
      simp only [hn a b (by simp)] at h
      exact ih (ord.sub 1) (fun a b h => hn a b (by simp [h])) h

/-- A variable whose dependencies all were looked at has no entry in the end, if its set is to be empty. -/
theorem followLoop_none {deps : List (V × List V)} {v : V} {Target : V → Sym V T → Prop}
    (ht : ∀ l r x, l ∈ getSet deps r → Target r x → Target l x) (hv : ∀ x, ¬ Target v x) :
    ∀ {n : Nat} (ord : HashOrder) {queue : List (V × V)} {result r : List (V × List (Sym V T))},
    followLoop deps ord n queue result = .ok r → (∀ a b, (a, b) ∈ queue → a ≠ v ∧ a ∈ getSet deps b) →
    (∀ w x, x ∈ getSet result w → Target w x) → mapGet result v = none → mapGet r v = none := by
  intro n
  induction n with
  | zero =>
    intro ord queue result r h _ _ hn
    cases queue with
    | nil => cases h; exact hn
    | cons e queue => cases h
  | succ n ih =>
    intro ord queue result r h hq hs hn
    cases queue with
    | nil => cases h; exact hn
    | cons e queue =>
      obtain ⟨a, b⟩ := e
      obtain ⟨hav, hab⟩ := hq a b (by simp)
      have hq' : ∀ a b, (a, b) ∈ queue → a ≠ v ∧ a ∈ getSet deps b := fun a b h => hq a b (by simp [h])
      rw [followLoop] at h
      cases hb : mapGet result b with
      | none =>
        simp only [hb] at h
        exact ih (ord.sub 1) h hq' hs hn
      | some f =>
        simp only [hb] at h
        have hnew : ∀ x ∈ extendSet ((mapGet result a).getD []) f, Target a x := by
          intro x hx
          rcases mem_extendSet.1 hx with hx | hx
          · exact hs a x hx
          · exact ht a b x hab (hs b x (by simpa [getSet, hb] using hx))
        have hs' : ∀ w x, x ∈ getSet (mapSet result a (extendSet ((mapGet result a).getD []) f)) w →
            Target w x := by
          intro w x hx
          rw [getSet_mapSet] at hx
          split at hx
          · rename_i he; subst he; exact hnew x hx
          · exact hs w x hx
        have hn' : mapGet (mapSet result a (extendSet ((mapGet result a).getD []) f)) v = none := by
          rw [mapGet_mapSet, if_neg hav]; exact hn
        split at h
        · rename_i hlen
          refine ih (ord.sub 1) h (fun c d hcd => ?_) hs' hn'
          rcases List.mem_append.1 hcd with hcd | hcd
          · exact hq' c d hcd
          · simp only [List.mem_map, HashOrder.mem_shuffle, Prod.mk.injEq] at hcd
            obtain ⟨k, h1, rfl, rfl⟩ := hcd
            refine ⟨?_, h1⟩
            rintro rfl
            have : ∃ x, x ∈ extendSet ((mapGet result a).getD []) f := by
              cases hx : extendSet ((mapGet result a).getD []) f with
              | nil =>
                exfalso
                apply hlen
                rw [hx]
                cases ho : (mapGet result a).getD [] with
                | nil => rfl
                | cons y ys =>
                  have : y ∈ extendSet ((mapGet result a).getD []) f := mem_extendSet.2 (.inl (by rw [ho]; simp))
                  rw [hx] at this
                  cases this
              | cons y ys => exact ⟨y, by simp⟩
            obtain ⟨x, hx⟩ := this
            exact hv x (ht _ _ x h1 (hnew x hx))
        · exact ih (ord.sub 1) h hq' hs' hn'

/-! ## The sets -/

/-- Some elements of a list come first in a rearrangement. -/
theorem perm_front {α : Type} [DecidableEq α] {p l : List α} (hp : p.Nodup) (h : ∀ a ∈ p, a ∈ l) :
    ∃ rest, (p ++ rest).Perm l := by
  induction p generalizing l with
  | nil => exact ⟨l, List.Perm.refl l⟩
  | cons a p ih =>
    obtain ⟨h1, h2⟩ := List.nodup_cons.1 hp
    obtain ⟨rest, h3⟩ := ih h2 (l := l.erase a) (fun b hb => by
      rw [List.mem_erase_of_ne (by rintro rfl; exact h1 hb)]
      exact h b (by simp [hb]))
    exact ⟨rest, (h3.cons a).trans (List.perm_cons_erase (h a (by simp))).symm⟩

/-- The variables on which others depend can be looked at in any order. -/
theorem followSet_order (wf : WellFormed g) {fuel : Nat} (hf : followFuel g ≤ fuel) :
    ∃ s : FollowState V T, (∀ v x, x ∈ getSet s.result v ↔ ∃ h β, (h, β) ∈ g.rules ∧ Direct g β v x) ∧
      (∀ k v, v ∈ getSet s.deps k ↔ ∃ β, (k, β) ∈ g.rules ∧ AtEnd g β v) ∧
      (∀ v, (mapGet s.result v).isSome ↔ ∃ h β, (h, β) ∈ g.rules ∧ NotLast β v) ∧
      ∃ (keys : List V) (group : V → List (V × V)), keys.Nodup ∧
        (∀ k, k ∈ keys ↔ ∃ l, l ∈ getSet s.deps k) ∧
        (∀ k l r, (l, r) ∈ group k ↔ r = k ∧ l ∈ getSet s.deps r) ∧
        ∀ keys' : List V, keys'.Perm keys → ∃ ord ord' r, g.followSet ord fuel = .ok r ∧
          followLoop s.deps ord' fuel (keys'.flatMap group) s.result = .ok r := by
  have hf1 : firstFuel g ≤ fuel := by unfold followFuel at hf; omega
  obtain ⟨s, h1, i, p⟩ := followRules_spec wf .insertion hf1 (rules := HashOrder.insertion.grouped Prod.fst g.rules)
    (s := ⟨[], []⟩) ⟨by simp [getSet, mapGet], by simp [getSet, mapGet], by simp, by simp,
      by simp [getSet, mapGet]⟩ (fun r hr => by simpa using hr)
  have hempty : ∀ {A : Type} (v : V), getSet ([] : List (V × List A)) v = [] := fun v => rfl
  have hq : ∀ l r, (l, r) ∈ s.deps.flatMap (fun d => d.2.map fun l => (l, d.1)) ↔ l ∈ getSet s.deps r := by
    intro l r
    simp only [List.mem_flatMap, List.mem_map, Prod.mk.injEq, Prod.exists]
    constructor
    · rintro ⟨k, ls, h1, l', h2, rfl, rfl⟩
      simp only [getSet, mapGet_of_mem i.keys h1]
      exact h2
    · intro h
      cases hg : mapGet s.deps r with
      | none => simp [getSet, hg] at h
      | some ls =>
        simp only [getSet, hg, Option.getD_some] at h
        exact ⟨r, ls, mapGet_mem hg, l, h, rfl, rfl⟩
  have hkeys : ∀ k, k ∈ extendSet [] ((s.deps.flatMap (fun d => d.2.map fun l => (l, d.1))).map Prod.snd) ↔
      ∃ l, l ∈ getSet s.deps k := by
    intro k
    rw [mem_extendSet]
    simp only [List.not_mem_nil, false_or, List.mem_map, Prod.exists, exists_and_right]
    constructor
    · rintro ⟨l, k', h, rfl⟩
      exact ⟨l, (hq _ _).1 h⟩
    · rintro ⟨l, h⟩
      exact ⟨l, k, (hq _ _).2 h, rfl⟩
  refine ⟨s, fun v x => by rw [p.result]; simp [hempty], fun k v => by rw [p.deps]; simp [hempty],
    fun v => by rw [p.entries]; simp [mapGet],
    extendSet [] ((s.deps.flatMap (fun d => d.2.map fun l => (l, d.1))).map Prod.snd),
    fun k => (s.deps.flatMap (fun d => d.2.map fun l => (l, d.1))).filter fun e => e.2 = k,
    nodup_extendSet List.nodup_nil, hkeys, ?_, ?_⟩
  · intro k l r
    rw [List.mem_filter, hq, decide_eq_true_eq, and_comm]
  · intro keys' hp
    obtain ⟨f, h2, h3⟩ := exists_grouped Prod.snd (s.deps.flatMap (fun d => d.2.map fun l => (l, d.1)))
      (hp.nodup_iff.2 (nodup_extendSet List.nodup_nil)) (fun k => by
        rw [hp.mem_iff, mem_extendSet, List.mem_map]
        exact ⟨fun h => h.resolve_left (by simp), .inr⟩)
    obtain ⟨r, h4, _⟩ := followSet_spec wf (orderUnder 2 (orderAt [0] f h2)) hf
    refine ⟨_, .insertion, r, h4, ?_⟩
    rw [Grammar.followSet, orderUnder_sub, orderUnder_sub_ne (by decide), orderUnder_sub_ne (by decide),
      orderUnder_sub_ne (by decide), h1, Outcome.bind_ok] at h4
    simp only [h3] at h4
    exact h4

/-- In some order a variable gets an entry. -/
theorem followSet_some (wf : WellFormed g) {fuel : Nat} (hf : followFuel g ≤ fuel) {v : V} (hv : Entered g v) :
    ∃ ord r, g.followSet ord fuel = .ok r ∧ (mapGet r v).isSome := by
  obtain ⟨s, _, hdeps, hentries, keys, group, hn, hk, hg, hall⟩ := followSet_order wf hf
  have hpath : ∃ u p, (mapGet s.result u).isSome ∧ DepPath s.deps u p v := by
    induction hv with
    | notLast hr hn => exact ⟨_, [], (hentries _).2 ⟨_, _, hr, hn⟩, .nil⟩
    | up hr he _ ih =>
      obtain ⟨u, p, h1, h2⟩ := ih
      exact ⟨u, _, h1, h2.append (.cons ((hdeps _ _).2 ⟨_, hr, he⟩) .nil)⟩
  obtain ⟨u, p, h1, h2⟩ := hpath
  obtain ⟨p, h2, h3⟩ := h2.nodup
  obtain ⟨rest, h4⟩ := perm_front h3 (l := keys) (fun e he => (hk _).2 (h2.mem _ he))
  obtain ⟨ord, ord', r, h5, h6⟩ := hall _ h4
  rw [List.flatMap_append] at h6
  exact ⟨ord, r, h5, followLoop_path (fun a b h => (hg b a b).2 ⟨rfl, h⟩) h2 ord' h6 h1⟩

/-- In some order a variable gets no entry. -/
theorem followSet_none (wf : WellFormed g) {fuel : Nat} (hf : followFuel g ≤ fuel) {v : V} (hv : ¬ SureEntry g v)
    (he : ∀ t, ¬ Fol g t v) : ∃ ord r, g.followSet ord fuel = .ok r ∧ mapGet r v = none := by
  obtain ⟨s, hdirect, hdeps, hentries, keys, group, hn, hk, hg, hall⟩ := followSet_order wf hf
  obtain ⟨ord, ord', r, h5, h6⟩ := hall (keys.filter (fun k => v ∈ getSet s.deps k) ++
      keys.filter (fun k => ¬ v ∈ getSet s.deps k)) (by
    have := List.filter_append_perm (fun k : V => decide (v ∈ getSet s.deps k)) keys
    simpa using this)
  refine ⟨ord, r, h5, ?_⟩
  have hnone : ∀ {w}, ¬ (∃ h β, (h, β) ∈ g.rules ∧ NotLast β w) → mapGet s.result w = none := by
    intro w h
    cases hm : mapGet s.result w with
    | none => rfl
    | some f => exact absurd ((hentries w).1 (by rw [hm]; rfl)) h
  rw [List.flatMap_append] at h6
  obtain ⟨ord'', n', h7⟩ := followLoop_skip ord' (fun a b hab => hnone (by
    simp only [List.mem_flatMap, List.mem_filter, decide_eq_true_eq] at hab
    obtain ⟨k, ⟨_, h1⟩, h2⟩ := hab
    obtain ⟨rfl, _⟩ := (hg _ _ _).1 h2
    rintro ⟨h, β, h2, h3⟩
    obtain ⟨β', h4, h5⟩ := (hdeps _ _).1 h1
    exact hv (.up h4 h5 h2 h3))) h6
  refine followLoop_none (Target := fun v x => ∃ t, x = .term t ∧ Fol g t v) ?_ ?_ ord'' h7 ?_ ?_ ?_
  · rintro l r x hl ⟨t, rfl, h⟩
    obtain ⟨β, hr, pre, rest, rfl, hn⟩ := (hdeps r l).1 hl
    exact ⟨t, rfl, .up hr hn h⟩
  · rintro x ⟨t, _, h⟩
    exact he t h
  · intro a b hab
    simp only [List.mem_flatMap, List.mem_filter, decide_not, Bool.not_eq_true', decide_eq_false_iff_not] at hab
    obtain ⟨k, ⟨_, h1⟩, h2⟩ := hab
    obtain ⟨rfl, h3⟩ := (hg _ _ _).1 h2
    exact ⟨by rintro rfl; exact h1 h3, h3⟩
  · intro w x h
    obtain ⟨h', β, hr, pre, rest, rfl, t, rfl, hs⟩ := (hdirect w x).1 h
    exact ⟨t, rfl, .here hr hs⟩
  · exact hnone (fun ⟨h, β, h1, h2⟩ => hv (.notLast h1 h2))

/-! ## The parser -/

variable [TerminalEq T] [LawfulTerminalEq T]

/-- The verdict on the construction and the parser, if it is known whether the start variable has a FOLLOW set. -/
theorem slrNew_entry (wf : WellFormed g) {fuel : Nat} (hf : tableFuel g ≤ fuel) {ord : HashOrder}
    {follow : List (V × List (Sym V T))} (h : g.followSet ord fuel = .ok follow) {entry : Prop}
    (he : Entry g follow ↔ entry) :
    ((∀ γ p p' k k', Needs g entry γ p k → Needs g entry γ p' k' → keyEq k k' = true → p = p' ∧ k = k') ∧
      ∃ c tbl, slrNew g (orderBelow 1 0 ord) fuel = .ok tbl ∧ SlrOk g c entry tbl) ∨
    (¬ (∀ γ p p' k k', Needs g entry γ p k → Needs g entry γ p' k' → keyEq k k' = true → p = p' ∧ k = k') ∧
      slrNew g (orderBelow 1 0 ord) fuel = .panic) := by
  obtain ⟨c, follow', h1, _, _, h2⟩ := slrNew_at wf (orderBelow 1 0 ord) hf
  rw [orderBelow_sub, h] at h1
  cases h1
  obtain rfl : Entry g follow = entry := propext he
  rcases h2 with ⟨h2, tbl, h3, h4⟩ | h2
  · exact .inl ⟨h2, c, tbl, h3, h4⟩
  · exact .inr h2

end Pango.Parse
