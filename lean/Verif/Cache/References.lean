import Verif.Cache.Props

/-!
C204: references and iterators to the elements of a cache (`operator[]`, `find`, `most_recent`, `begin`, structures/cache.h:63-125, 211-223): how long
they stay valid.

A reference is the identity of a list node (Model.lean); reading one that is not in the list is undefined.
-/

namespace Verif.Cache
open Verif.Cache.Spec
variable {K : Type} [DecidableEq K]

/-! ### Specification -/

/-- The call makes an element the most recent one that was not. -/
def renews (s : LRU K) (op : Op K) (k : K) : Prop := (op = .find k ∨ op = .access k) ∧ k ∈ s.keys ∧ s.keys.head? ≠ some k

/-- The element stays in the cache. -/
def StaysIn (s : LRU K) (k : K) : List (Op K) → Prop
  | [] => True
  | op :: ops => ∀ s' o, s.step op = .ok (s', o) → k ∈ s'.keys ∧ StaysIn s' k ops

/-- The element stays in the cache and is never promoted. -/
def StaysPut (s : LRU K) (k : K) : List (Op K) → Prop
  | [] => True
  | op :: ops => ¬ renews s op k ∧ ∀ s' o, s.step op = .ok (s', o) → k ∈ s'.keys ∧ StaysPut s' k ops

/-- The full claim: a reference to an element may be read as long as the element stays in the cache. -/
def C204_statement : Prop := ∀ (c c' : Cache Nat) (i k : Nat) (ops : List (Op Nat)) (os : List (Out Nat)), Reachable c → (i, k) ∈ c.list →
  StaysIn (abs c) k ops → run c ops = .ok (c', os) → c'.deref i = .ok k

/-- A loop over the cache (`for (auto& key : cache) body(key);`) from the node `it`, in at most `fuel` rounds: `++it` reads the node. -/
def forFrom (body : Cache K → Arg K → Res (Cache K)) : Nat → Cache K → Option Nat → Res (Cache K)
  | 0, _, _ => .ub
  | _ + 1, c, none => .ok c
  | fuel + 1, c, some it => do
    let _ ← c.deref it
    let c ← body c (.node it)
    let _ ← c.deref it
    forFrom body fuel c (((c.list.dropWhile fun p => p.1 ≠ it).drop 1).head?.map Prod.fst)

/-- The loop over the whole cache. -/
def forEach (body : Cache K → Arg K → Res (Cache K)) (fuel : Nat) (c : Cache K) : Res (Cache K) := forFrom body fuel c (c.list.head?.map Prod.fst)

/-- The body that finds every element. -/
def findBody (c : Cache K) (a : Arg K) : Res (Cache K) := do
  let (c, _) ← c.find a
  .ok c

/-! ### Lemmas -/

/-- How a call changes the nodes: nodes are old, or new and then for an absent element or for one with `t`; the old nodes of these are gone. -/
structure Evo (c c' : Cache K) (t : K → Prop) : Prop where
  next : c.next ≤ c'.next
  old : ∀ j k, (j, k) ∈ c'.list → (j, k) ∈ c.list ∨ (c.next ≤ j ∧ (k ∉ c.values ∨ t k))
  gone : ∀ i k, (i, k) ∈ c.list → t k → (i, k) ∉ c'.list

theorem clip_nodes (c : Cache K) : ∀ p ∈ c.clip.list, p ∈ c.list := by
  unfold Cache.clip
  apply clipLoop_ind (fun c' => ∀ p ∈ c'.list, p ∈ c.list)
  · intro a b h hs
    obtain ⟨l, b, h1, _, rfl⟩ := clipStep_some hs
    intro p hp
    exact h p (by rw [h1]; exact List.mem_append_left _ hp)
  · exact fun p hp => hp

/-- A call that makes no node. -/
theorem Evo.shrink {c c' : Cache K} {t : K → Prop} (hn : c.next ≤ c'.next) (h : ∀ p ∈ c'.list, p ∈ c.list) (ht : ∀ k, ¬ t k) : Evo c c' t :=
  ⟨hn, fun j k hm => .inl (h _ hm), fun i k _ h => absurd h (ht k)⟩

/-- The front node is the node of the front element. -/
theorem Inv.front {c : Cache K} (h : Inv c) {i : Nat} {k : K} (hm : (i, k) ∈ c.list) : c.list.head?.map Prod.fst = some i ↔ c.values.head? = some k := by
  have h1 := h.ids
  have h2 := h.keys
  unfold Cache.values at h2 ⊢
  cases hl : c.list with
  | nil => rw [hl] at hm; cases hm
  | cons p l =>
    rw [hl] at hm h1 h2
    rw [List.map_cons, List.nodup_cons] at h1 h2
    simp only [List.head?_cons, Option.map_some, List.map_cons, Option.some.injEq]
    rcases List.mem_cons.1 hm with e | hm
    · rw [← e]; simp
    · constructor
      · intro e; exact absurd (List.mem_map.2 ⟨_, hm, e.symm⟩) h1.1
      · intro e; exact absurd (List.mem_map.2 ⟨_, hm, e.symm⟩) h2.1

theorem Inv.move_list {c : Cache K} (h : Inv c) {i : Nat} {k : K} (hm : (i, k) ∈ c.list) : ∃ c', c.moveToFront i = .ok c' ∧
    (c.values.head? = some k → c' = c) ∧ (c.values.head? ≠ some k → c'.list = (c.next, k) :: c.list.filter (fun q => q.2 ≠ k) ∧ c'.next = c.next + 1) := by
  unfold Cache.moveToFront
  rw [h.find? hm]
  simp only
  by_cases hf : c.values.head? = some k
  · rw [if_pos ((h.front hm).2 hf)]
    exact ⟨_, rfl, fun _ => rfl, fun h => absurd hf h⟩
  · rw [if_neg fun h' => hf ((h.front hm).1 h')]
    exact ⟨_, rfl, fun h => absurd h hf, fun _ => ⟨by rw [eraseP_eq h.ids h.keys hm], rfl⟩⟩

/-- The nodes after `find`. -/
theorem Inv.find_list {c c' : Cache K} (h : Inv c) {a : Arg K} {k : K} (ha : c.readArg a = .ok k) {r : Option Nat} (e : c.find a = .ok (c', r)) :
    (k ∉ c.values ∨ c.values.head? = some k → c' = c) ∧
    (k ∈ c.values → c.values.head? ≠ some k → c'.list = (c.next, k) :: c.list.filter (fun q => q.2 ≠ k) ∧ c'.next = c.next + 1) := by
  by_cases hk : k ∈ c.values
  · obtain ⟨i, h1, h2⟩ := h.map_some hk
    obtain ⟨c1, m1, m2, m3⟩ := h.move_list h2
    have : c1 = c' := by
      unfold Cache.find at e
      simp only [ha, Res.bind_ok, h1, m1] at e
      split at e
      · injection e with e; injection e
      · cases e
    subst this
    exact ⟨fun ho => m2 (ho.resolve_left fun h => h hk), fun _ => m3⟩
  · rw [(h.find a k ha).2 hk] at e
    injection e with e; injection e with e _
    exact ⟨fun _ => e.symm, fun h => absurd h hk⟩

theorem Inv.find_evo {c c' : Cache K} (h : Inv c) {a : Arg K} {k : K} (ha : c.readArg a = .ok k) {r : Option Nat} (e : c.find a = .ok (c', r)) :
    Evo c c' (fun x => x = k ∧ k ∈ c.values ∧ c.values.head? ≠ some k) := by
  obtain ⟨f1, f2⟩ := h.find_list ha e
  by_cases hp : k ∈ c.values ∧ c.values.head? ≠ some k
  · obtain ⟨g1, g2⟩ := f2 hp.1 hp.2
    refine ⟨by omega, fun j x hm => ?_, fun i x hm ht hm' => ?_⟩
    · rw [g1] at hm
      rcases List.mem_cons.1 hm with e | hm
      · injection e with e1 e2
        exact .inr ⟨by omega, .inr ⟨e2, hp⟩⟩
      · exact .inl (List.mem_filter.1 hm).1
    · obtain ⟨rfl, -⟩ := ht
      rw [g1] at hm'
      rcases List.mem_cons.1 hm' with e | hm'
      · injection e with e1 _
        have := h.fresh _ hm
        simp only at this
        omega
      · simpa using (List.mem_filter.1 hm').2
  · have : c' = c := f1 (by
      by_cases hk : k ∈ c.values
      · exact .inr (Classical.byContradiction fun h => hp ⟨hk, h⟩)
      · exact .inl hk)
    subst this
    exact Evo.shrink (Nat.le_refl _) (fun p hp => hp) fun x hx => hp hx.2

theorem Inv.add_evo {c c' : Cache K} (h : Inv c) {k : K} (e : c.add (.val k) = .ok c') : Evo c c' (fun _ => False) ∧
    ∀ j x, (j, x) ∈ c'.list → (j, x) ∈ c.list ∨ (c.next ≤ j ∧ x = k ∧ k ∉ c.values) := by
  by_cases hk : k ∈ c.values
  · rw [add_present h.weak _ rfl hk] at e
    injection e with e; subst e
    exact ⟨Evo.shrink (Nat.le_refl _) (fun p hp => hp) fun _ h => h, fun j x hm => .inl hm⟩
  · rw [add_absent h.weak hk] at e
    injection e with e; subst e
    have key : ∀ j x, (j, x) ∈ (Cache.clip { c with
          list := (c.next, k) :: c.list
          next := c.next + 1
          map := fun k' => if k' = k then some c.next else c.map k' }).list → (j, x) ∈ c.list ∨ (c.next ≤ j ∧ x = k ∧ k ∉ c.values) := by
      intro j x hm
      rcases List.mem_cons.1 (clip_nodes _ _ hm) with e | hm
      · injection e with e1 e2
        exact .inr ⟨by omega, e2, hk⟩
      · exact .inl hm
    refine ⟨⟨?_, fun j x hm => ?_, fun _ _ _ h => absurd h id⟩, key⟩
    · show c.next ≤ (Cache.clip _).next
      rw [clip_next]; exact Nat.le_succ _
    · rcases key j x hm with h | ⟨h1, h2, h3⟩
      · exact .inl h
      · exact .inr ⟨h1, .inl (h2 ▸ h3)⟩

theorem Evo.congr {c c' : Cache K} {t t' : K → Prop} (h : Evo c c' t) (e : ∀ k, t k ↔ t' k) : Evo c c' t' := by
  have : t = t' := funext fun k => propext (e k)
  rw [← this]; exact h

theorem Inv.step_evo {c c' : Cache K} (h : Inv c) {op : Op K} {o : Out K} (e : Cache.step c op = .ok (c', o)) : Evo c c' (renews (abs c) op) := by
  cases op with
  | add k =>
    obtain ⟨c1, e1, e2⟩ := Res.bind_eq_ok.1 e
    injection e2 with e2; injection e2 with e2 _; subst e2
    exact (h.add_evo e1).1.congr fun x => by simp [renews]
  | find k =>
    obtain ⟨⟨c1, it⟩, e1, e2⟩ := Res.bind_eq_ok.1 e
    have : c1 = c' := by
      cases it with
      | none => injection e2 with e2; injection e2
      | some id =>
        obtain ⟨x, -, e3⟩ := Res.bind_eq_ok.1 e2
        injection e3 with e3; injection e3
    subst this
    refine (h.find_evo (a := .val k) rfl e1).congr fun x => ?_
    unfold renews
    constructor
    · rintro ⟨rfl, h1, h2⟩; exact ⟨.inl rfl, h1, h2⟩
    · rintro ⟨h0 | h0, h1, h2⟩
      · injection h0 with h0; subst h0; exact ⟨rfl, h1, h2⟩
      · cases h0
  | access k =>
    obtain ⟨⟨c1, id⟩, e1, e2⟩ := Res.bind_eq_ok.1 e
    obtain ⟨x, -, e3⟩ := Res.bind_eq_ok.1 e2
    injection e3 with e3; injection e3 with e3 _
    have e3 : c1 = c' := e3
    subst e3
    unfold Cache.access at e1
    simp only [Cache.readArg, Res.bind_ok, h.weak.contains] at e1
    by_cases hk : k ∈ c.values
    · simp only [hk, decide_true, Bool.not_true, Bool.false_eq_true, if_false] at e1
      obtain ⟨⟨c2, it⟩, e4, e5⟩ := Res.bind_eq_ok.1 e1
      have : c2 = c1 := by
        cases it with
        | none => cases e5
        | some j =>
          obtain ⟨y, -, e6⟩ := Res.bind_eq_ok.1 e5
          injection e6 with e6; injection e6
      subst this
      have ev := (h.last false).find_evo (a := .val k) rfl e4
      have ev' : Evo c c2 (fun x => x = k ∧ k ∈ c.values ∧ c.values.head? ≠ some k) := ⟨ev.next, ev.old, ev.gone⟩
      refine ev'.congr fun x => ?_
      unfold renews
      constructor
      · rintro ⟨rfl, h1, h2⟩; exact ⟨.inr rfl, h1, h2⟩
      · rintro ⟨h0 | h0, h1, h2⟩
        · cases h0
        · injection h0 with h0; subst h0; exact ⟨rfl, h1, h2⟩
    · simp only [hk, decide_false, Bool.not_false, if_true] at e1
      obtain ⟨c3, e6, e7⟩ := Res.bind_eq_ok.1 e1
      obtain ⟨⟨c2, it⟩, e4, e5⟩ := Res.bind_eq_ok.1 e7
      have : c2 = c1 := by
        cases it with
        | none => cases e5
        | some j =>
          obtain ⟨y, -, e6⟩ := Res.bind_eq_ok.1 e5
          injection e6 with e6; injection e6
      subst this
      obtain ⟨c4, e8, i4, -⟩ := h.add k
      obtain rfl : c4 = c3 := by rw [e8] at e6; injection e6
      obtain ⟨a1, a2⟩ := h.add_evo e8
      have ev := i4.find_evo (a := .val k) rfl e4
      refine ⟨Nat.le_trans a1.next ev.next, fun j x hm => ?_, fun i x hm ht => ?_⟩
      · rcases ev.old j x hm with h1 | ⟨h1, h2 | ⟨h2, -⟩⟩
        · rcases a2 j x h1 with h1 | ⟨h1, h2, h3⟩
          · exact .inl h1
          · exact .inr ⟨h1, .inl (h2 ▸ h3)⟩
        · -- a new node of an element that was absent after `add`: not in `c'`
          exfalso
          obtain ⟨f1, f2⟩ := i4.find_list (a := .val k) rfl e4
          by_cases hp : k ∉ c4.values ∨ c4.values.head? = some k
          · rw [f1 hp] at hm; exact h2 (List.mem_map.2 ⟨_, hm, rfl⟩)
          · have hp1 : k ∈ c4.values := Classical.byContradiction fun h => hp (.inl h)
            rw [(f2 hp1 fun h => hp (.inr h)).1] at hm
            rcases List.mem_cons.1 hm with e | hm
            · injection e with _ e; exact h2 (e ▸ hp1)
            · exact h2 (List.mem_map.2 ⟨_, (List.mem_filter.1 hm).1, rfl⟩)
        · exact .inr ⟨Nat.le_trans a1.next h1, .inl (h2 ▸ hk)⟩
      · obtain ⟨h0 | h0, h1, -⟩ := ht
        · cases h0
        · injection h0 with h0; subst h0; exact absurd h1 hk
  | remove k =>
    obtain ⟨c1, e1, e2⟩ := Res.bind_eq_ok.1 e
    injection e2 with e2; injection e2 with e2 _; subst e2
    unfold Cache.remove at e1
    simp only [Cache.readArg, Res.bind_ok] at e1
    have nt : ∀ x, ¬ renews (abs c) (.remove k) x := fun x hx => by rcases hx.1 with h | h <;> cases h
    split at e1
    · obtain ⟨y, -, e3⟩ := Res.bind_eq_ok.1 e1
      injection e3 with e3; subst e3
      exact Evo.shrink (Nat.le_refl _) (fun p hp => List.mem_of_mem_eraseP hp) nt
    · injection e1 with e1; subst e1
      exact Evo.shrink (Nat.le_refl _) (fun p hp => hp) nt
  | clear =>
    injection e with e; injection e with e _; subst e
    exact Evo.shrink (Nat.le_refl _) (fun p hp => by cases hp) fun x hx => by rcases hx.1 with h | h <;> cases h
  | setCapacity n =>
    injection e with e; injection e with e _; subst e
    refine Evo.shrink ?_ (fun p hp => clip_nodes { c with maxElements := n } p hp) fun x hx => by rcases hx.1 with h | h <;> cases h
    unfold Cache.setCapacity; rw [clip_next]; exact Nat.le_refl _
  | clip =>
    injection e with e; injection e with e _; subst e
    refine Evo.shrink ?_ (fun p hp => clip_nodes _ p hp) fun x hx => by rcases hx.1 with h | h <;> cases h
    rw [clip_next]; exact Nat.le_refl _

/-- Reading a node that is not there. -/
theorem deref_ub {c : Cache K} {i : Nat} (h : ∀ k, (i, k) ∉ c.list) : c.deref i = .ub := by
  unfold Cache.deref
  have : c.list.find? (fun p => p.1 = i) = none := by
    rw [List.find?_eq_none]
    intro p hp
    simp only [decide_eq_true_eq]
    rintro rfl
    exact h p.2 hp
  rw [this]

theorem Inv.key_unique {c : Cache K} (h : Inv c) {i j : Nat} {k : K} (h1 : (i, k) ∈ c.list) (h2 : (j, k) ∈ c.list) : i = j := by
  have a := (h.map k i).2 h1
  rw [(h.map k j).2 h2] at a
  exact (Option.some.inj a).symm

theorem Inv.id_unique {c : Cache K} (h : Inv c) {i : Nat} {k l : K} (h1 : (i, k) ∈ c.list) (h2 : (i, l) ∈ c.list) : k = l := by
  have a := h.deref h1
  rw [h.deref h2] at a
  exact (Res.ok.inj a).symm

/-- One call: the node survives exactly if the element stays and is not promoted. -/
theorem Inv.node_step {c c' : Cache K} (h : Inv c) (h' : Inv c') {op : Op K} {o : Out K} (e : Cache.step c op = .ok (c', o)) {i : Nat} {k : K}
    (hm : (i, k) ∈ c.list) : (i, k) ∈ c'.list ↔ k ∈ c'.values ∧ ¬ renews (abs c) op k := by
  have ev := h.step_evo e
  constructor
  · intro hm'
    exact ⟨List.mem_map.2 ⟨_, hm', rfl⟩, fun ht => ev.gone i k hm ht hm'⟩
  · rintro ⟨hk, hn⟩
    obtain ⟨j, -, hj⟩ := h'.map_some hk
    rcases ev.old j k hj with hj' | ⟨-, hv | ht⟩
    · rw [h.key_unique hm hj']; exact hj
    · exact absurd (List.mem_map.2 ⟨_, hm, rfl⟩) hv
    · exact absurd ht hn

/-- A node that is gone stays gone: identities are not used twice. -/
theorem Inv.dead_step {c c' : Cache K} (h : Inv c) {op : Op K} {o : Out K} (e : Cache.step c op = .ok (c', o)) {i : Nat} (hi : i < c.next)
    (hd : ∀ k, (i, k) ∉ c.list) : i < c'.next ∧ ∀ k, (i, k) ∉ c'.list := by
  have ev := h.step_evo e
  refine ⟨Nat.lt_of_lt_of_le hi ev.next, fun k hm => ?_⟩
  rcases ev.old i k hm with h1 | ⟨h1, -⟩
  · exact hd k h1
  · omega

theorem Inv.dead_run (ops : List (Op K)) : ∀ {c c' : Cache K} {os : List (Out K)}, Inv c → c.values.length ≤ c.maxElements → run c ops = .ok (c', os) →
    ∀ {i : Nat}, i < c.next → (∀ k, (i, k) ∉ c.list) → c'.deref i = .ub := by
  induction ops with
  | nil => intro c c' os _ _ e i _ hd; injection e with e; injection e with e _; subst e; exact deref_ub hd
  | cons op ops ih =>
    intro c c' os h hc e i hi hd
    obtain ⟨⟨c1, o⟩, e1, e2⟩ := Res.bind_eq_ok.1 e
    obtain ⟨⟨c2, os'⟩, e3, e4⟩ := Res.bind_eq_ok.1 e2
    injection e4 with e4; injection e4 with e4 _
    have e4 : c2 = c' := e4
    subst e4
    rcases h.step hc op with ⟨c3, o3, f1, f2, f3⟩ | ⟨f1, -⟩
    · obtain ⟨rfl, rfl⟩ : c3 = c1 ∧ o3 = o := by rw [f1] at e1; injection e1 with e1; injection e1 with a b; exact ⟨a, b⟩
      obtain ⟨d1, d2⟩ := h.dead_step e1 hi hd
      exact ih f2 (step_len (s := abs c) hc f3) e3 d1 d2
    · rw [f1] at e1; cases e1

/-! ### C204 -/

/-- Exactly how long a reference is valid: until its element leaves the cache or is promoted by `find` or `operator[]` from another place than the
front.  From then on reading it is undefined for ever. -/
theorem C204_exact_partial {c : Cache K} (hr : Reachable c) (ops : List (Op K)) {c' : Cache K} {os : List (Out K)} (e : run c ops = .ok (c', os))
    {i : Nat} {k : K} (hm : (i, k) ∈ c.list) : (StaysPut (abs c) k ops → c'.deref i = .ok k) ∧ (¬ StaysPut (abs c) k ops → c'.deref i = .ub) := by
  obtain ⟨h, hc⟩ := hr.inv
  clear hr
  induction ops generalizing c os with
  | nil =>
    injection e with e; injection e with e _; subst e
    exact ⟨fun _ => h.deref hm, fun hn => absurd trivial hn⟩
  | cons op ops ih =>
    obtain ⟨⟨c1, o⟩, e1, e2⟩ := Res.bind_eq_ok.1 e
    obtain ⟨⟨c2, os'⟩, e3, e4⟩ := Res.bind_eq_ok.1 e2
    injection e4 with e4; injection e4 with e4 _
    have e4 : c2 = c' := e4
    subst e4
    rcases h.step hc op with ⟨c3, o3, f1, f2, f3⟩ | ⟨f1, -⟩
    · obtain ⟨rfl, rfl⟩ : c3 = c1 ∧ o3 = o := by rw [f1] at e1; injection e1 with e1; injection e1 with a b; exact ⟨a, b⟩
      have hc3 : c3.values.length ≤ c3.maxElements := step_len (s := abs c) hc f3
      have ns := h.node_step f2 e1 hm
      have sp : StaysPut (abs c) k (op :: ops) ↔ (i, k) ∈ c3.list ∧ StaysPut (abs c3) k ops := by
        rw [ns]
        simp only [StaysPut, f3]
        constructor
        · rintro ⟨h1, h2⟩
          obtain ⟨h3, h4⟩ := h2 _ _ rfl
          exact ⟨⟨h3, h1⟩, h4⟩
        · rintro ⟨⟨h1, h2⟩, h3⟩
          refine ⟨h2, fun s' o' he => ?_⟩
          injection he with he; injection he with he _
          have he : abs c3 = s' := he
          rw [← he]
          exact ⟨h1, h3⟩
      rw [sp]
      by_cases hin : (i, k) ∈ c3.list
      · obtain ⟨g1, g2⟩ := ih e3 hin f2 hc3
        exact ⟨fun hs => g1 hs.2, fun hs => g2 fun h => hs ⟨hin, h⟩⟩
      · refine ⟨fun hs => absurd hs.1 hin, fun _ => ?_⟩
        refine Inv.dead_run ops f2 hc3 e3 (Nat.lt_of_lt_of_le (h.fresh _ hm) (h.step_evo e1).next) fun l hl => ?_
        rcases (h.step_evo e1).old i l hl with h1 | ⟨h1, -⟩
        · exact hin (h.id_unique hm h1 ▸ hl)
        · have := h.fresh _ hm
          simp only at this
          omega
    · rw [f1] at e1; cases e1

/-- A loop over the cache that calls `find` for every element is undefined exactly if the cache has two elements or more. -/
theorem C204_loop_partial {c : Cache K} (hr : Reachable c) (fuel : Nat) :
    (c.size ≤ 1 → forEach findBody (fuel + 2) c = .ok c) ∧ (2 ≤ c.size → forEach findBody (fuel + 2) c = .ub) := by
  obtain ⟨h, -⟩ := hr.inv
  have hsize : c.size = c.list.length := rfl
  unfold forEach
  cases hl : c.list with
  | nil =>
    refine ⟨fun _ => rfl, fun hs => ?_⟩
    rw [hsize, hl] at hs; simp at hs
  | cons p l =>
    have hm : (p.1, p.2) ∈ c.list := by rw [hl]; exact List.mem_cons_self
    have hval : c.values.head? = some p.2 := by simp [Cache.values, hl]
    have hk : p.2 ∈ c.values := List.mem_map.2 ⟨_, hm, rfl⟩
    have ha : c.readArg (.node p.1) = .ok p.2 := h.deref hm
    obtain ⟨c1, j, l1, f1, -⟩ := (h.find (.node p.1) p.2 ha).1 hk
    obtain rfl : c1 = c := (h.find_list ha f1).1 (.inr hval)
    have round : ∀ fuel, forFrom findBody (fuel + 1) c1 (some p.1) = forFrom findBody fuel c1 (l.head?.map Prod.fst) := by
      intro fuel
      simp only [forFrom, h.deref hm, Res.bind_ok, findBody, f1]
      rw [hl, List.dropWhile_cons_of_neg (by simp)]
      rfl
    simp only [List.head?_cons, Option.map_some]
    rw [round]
    cases l with
    | nil =>
      refine ⟨fun _ => rfl, fun hs => ?_⟩
      rw [hsize, hl] at hs; simp at hs
    | cons q l =>
      refine ⟨fun hs => ?_, fun _ => ?_⟩
      · rw [hsize, hl] at hs; simp at hs
      · have hq : (q.1, q.2) ∈ c1.list := by rw [hl]; exact List.mem_cons_of_mem _ List.mem_cons_self
        have hqk : q.2 ∈ c1.values := List.mem_map.2 ⟨_, hq, rfl⟩
        have hqa : c1.readArg (.node q.1) = .ok q.2 := h.deref hq
        have hne : c1.values.head? ≠ some q.2 := by
          rw [hval]
          intro e
          have hn := h.keys
          unfold Cache.values at hn
          rw [hl] at hn
          simp only [List.map_cons, List.nodup_cons, List.mem_cons, not_or] at hn
          exact hn.1.1 (Option.some.inj e)
        obtain ⟨c2, j2, l2, f2, -⟩ := (h.find (.node q.1) q.2 hqa).1 hqk
        have ev := h.find_evo hqa f2
        have hu : c2.deref q.1 = .ub := by
          apply deref_ub
          intro x hx
          rcases ev.old _ _ hx with h1 | ⟨h1, -⟩
          · obtain rfl := h.id_unique hq h1
            exact ev.gone _ _ hq ⟨rfl, hqk, hne⟩ hx
          · have := h.fresh _ hq
            simp only at this
            omega
        simp only [List.head?_cons, Option.map_some, forFrom, h.deref hq, Res.bind_ok, findBody, f2, hu, Res.bind_ub]

/-- `auto& r = cache[1]; cache[2]; cache[1];`: the reference `r` to the element 1, which was in the cache all the time, is dangling. -/
theorem C204_counterexample : ¬ C204_statement := by
  intro h
  have hrun : ∃ c os, run (Cache.new (K := Nat) 2) [.access 1] = .ok (c, os) ∧ abs c = ⟨2, [1], true, 0, []⟩ := by
    obtain ⟨i0, l0⟩ := init_inv (K := Nat) (.inr ⟨2, rfl⟩)
    rcases run_refines [.access 1] _ i0 l0 with ⟨c, os, e, -, -, a⟩ | ⟨-, a⟩
    · rw [(new_inv 2).2] at a
      have : (LRU.new 2 : LRU Nat).run [.access 1] = .ok (⟨2, [1], true, 0, []⟩, [.elem 1]) := by decide +kernel
      rw [this] at a
      injection a with a; injection a with a _
      exact ⟨c, os, e, a.symm⟩
    · rw [(new_inv 2).2] at a
      exact absurd a (by decide +kernel)
  obtain ⟨c, os, e, ha⟩ := hrun
  have hr : Reachable c := ⟨_, _, _, .inr ⟨2, rfl⟩, e⟩
  obtain ⟨i, -, hm⟩ := hr.inv.1.map_some (k := 1) (by rw [show c.values = [1] from congrArg LRU.keys ha]; simp)
  obtain ⟨hi, hc⟩ := hr.inv
  rcases run_refines [.access 2, .access 1] c hi hc with ⟨c', os', e', -⟩ | ⟨-, a⟩
  · have st : StaysIn (abs c) 1 [.access 2, .access 1] := by
      rw [ha]
      intro s o e1
      have : (⟨2, [2, 1], true, 0, []⟩ : LRU Nat) = s := by
        have : LRU.step (⟨2, [1], true, 0, []⟩ : LRU Nat) (.access 2) = .ok (⟨2, [2, 1], true, 0, []⟩, .elem 2) := by decide +kernel
        rw [this] at e1; injection e1 with e1; injection e1
      subst this
      refine ⟨by simp, fun s o e2 => ?_⟩
      have : (⟨2, [1, 2], false, 0, []⟩ : LRU Nat) = s := by
        have : LRU.step (⟨2, [2, 1], true, 0, []⟩ : LRU Nat) (.access 1) = .ok (⟨2, [1, 2], false, 0, []⟩, .elem 1) := by decide +kernel
        rw [this] at e2; injection e2 with e2; injection e2
      subst this
      exact ⟨by simp, trivial⟩
    have good := h c c' i 1 _ _ hr hm st e'
    have bad := (C204_exact_partial hr _ e' hm).2 (by
      rw [ha]
      intro hp
      have h1 := (hp.2 ⟨2, [2, 1], true, 0, []⟩ (.elem 2) (by decide +kernel)).2.1
      exact h1 ⟨.inr rfl, by simp, by simp⟩)
    rw [good] at bad
    cases bad
  · rw [ha] at a
    exact absurd a (by decide +kernel)

-- the same program, run: the reference to node 0
example : (run (Cache.new (K := Nat) 2) [.access 1] >>= fun r => run r.1 [.access 2] >>= fun r => r.1.deref 0) = .ok 1 ∧
    (run (Cache.new (K := Nat) 2) [.access 1, .access 2, .access 1] >>= fun r => r.1.deref 0) = .ub ∧
    (run (Cache.new (K := Nat) 2) [.access 1, .access 1, .add 1, .find 1] >>= fun r => r.1.deref 0) = .ok 1 := by
  decide +kernel

end Verif.Cache
