import Verif.Cache.Spec

/-! Helper lemmas: map/list consistency, refinement of each call. -/

namespace Verif.Cache
open Spec
set_option linter.unusedSectionVars false
variable {K : Type} [DecidableEq K]

/-- Abstraction. -/
def abs (c : Cache K) : LRU K := ⟨c.maxElements, c.values, c.last, c.clipped, c.log⟩

/-- Key-level consistency (holds for copies as well). -/
structure WInv (c : Cache K) : Prop where
  keys : c.values.Nodup
  mapKeys : ∀ k, (c.map k).isSome = true ↔ k ∈ c.values

/-- Full consistency: the map entry of each key is the iterator of its own node. -/
structure Inv (c : Cache K) : Prop where
  keys : c.values.Nodup
  ids : (c.list.map Prod.fst).Nodup
  map : ∀ k i, c.map k = some i ↔ (i, k) ∈ c.list
  fresh : ∀ p ∈ c.list, p.1 < c.next

theorem Inv.weak {c : Cache K} (h : Inv c) : WInv c where
  keys := h.keys
  mapKeys := by
    intro k
    rw [Option.isSome_iff_exists]
    simp only [h.map, Cache.values, List.mem_map]
    constructor
    · rintro ⟨i, hi⟩; exact ⟨_, hi, rfl⟩
    · rintro ⟨p, hp, rfl⟩; exact ⟨p.1, hp⟩

theorem WInv.contains {c : Cache K} (h : WInv c) (k : K) : c.contains k = decide (k ∈ c.values) := by
  unfold Cache.contains
  rw [Bool.eq_iff_iff, h.mapKeys]; simp

theorem clipStep_some {c c' : Cache K} (h : c.clipStep = some c') :
    ∃ l b, c.list = l ++ [b] ∧ c.maxElements ≤ l.length ∧
      c' = { c with map := fun k => if k = b.2 then none else c.map k, log := c.log ++ [b.2], list := l,
                    clipped := c.clipped + 1 } := by
  unfold Cache.clipStep at h
  split at h
  · next hlt =>
    split at h
    · cases h
    · next b hb =>
      injection h with h
      obtain ⟨l, hl⟩ := List.getLast?_eq_some_iff.1 hb
      refine ⟨l, b, hl, ?_, ?_⟩
      · rw [hl] at hlt; simp at hlt; omega
      · rw [← h, hl]; simp
  · cases h

theorem clipStep_none {c : Cache K} (h : c.clipStep = none) : c.list.length ≤ c.maxElements := by
  unfold Cache.clipStep at h
  split at h
  · next hlt =>
    split at h
    · next hb => rw [List.getLast?_eq_none_iff] at hb; simp [hb] at hlt
    · cases h
  · omega

theorem clipLoop_ind (P : Cache K → Prop) (hstep : ∀ c c', P c → c.clipStep = some c' → P c') (c : Cache K) (h : P c) :
    P c.clipLoop := by
  induction c using Cache.clipLoop.induct with
  | case1 c hn => rw [Cache.clipLoop.eq_def]; split
                  · exact h
                  · next hs => rw [hn] at hs; cases hs
  | case2 c c' hs ih =>
    rw [Cache.clipLoop.eq_def]
    split
    · exact h
    · next c'' hs' =>
      rw [hs] at hs'; injection hs' with hs'; subst hs'
      exact ih (hstep c c' h hs)

theorem clipLoop_abs (c : Cache K) : abs c.clipLoop =
    { abs c with
      keys := c.values.take c.maxElements
      clipped := c.clipped + (c.values.drop c.maxElements).length
      discarded := c.log ++ (c.values.drop c.maxElements).reverse } := by
  induction c using Cache.clipLoop.induct with
  | case1 c hn =>
    rw [Cache.clipLoop.eq_def]; split
    · have := clipStep_none hn
      have h1 : c.values.length ≤ c.maxElements := by simpa [Cache.values] using this
      rw [List.take_of_length_le h1, List.drop_of_length_le h1]
      simp [abs]
    · next hs => rw [hn] at hs; cases hs
  | case2 c c' hs ih =>
    rw [Cache.clipLoop.eq_def]
    split
    · next hs' => rw [hs] at hs'; cases hs'
    · next c'' hs' =>
      rw [hs] at hs'; injection hs' with hs'; subst hs'
      rw [ih]
      obtain ⟨l, b, h1, h2, rfl⟩ := clipStep_some hs
      have hv : c.values = l.map Prod.snd ++ [b.2] := by simp [Cache.values, h1]
      have h3 : c.maxElements ≤ (l.map Prod.snd).length := by simpa using h2
      have hv' : ∀ m g n, Cache.values { c with map := m, log := g, list := l, clipped := n } = l.map Prod.snd :=
        fun _ _ _ => rfl
      rw [hv', hv]
      simp only [abs, List.take_append_of_le_length h3, List.drop_append_of_le_length h3]
      simp
      omega

theorem clip_abs (c : Cache K) : abs c.clip = (abs c).trim := by
  unfold Cache.clip
  rw [clipLoop_abs]
  simp [abs, LRU.trim, Cache.values]

theorem clip_next (c : Cache K) : c.clip.next = c.next := by
  unfold Cache.clip
  apply clipLoop_ind (fun c' => c'.next = c.next)
  · intro a b h hs
    obtain ⟨l, b, _, _, rfl⟩ := clipStep_some hs
    exact h
  · rfl

theorem WInv.clip {c : Cache K} (h : WInv c) : WInv c.clip := by
  unfold Cache.clip
  apply clipLoop_ind WInv
  · intro c c' h hs
    obtain ⟨l, b, h1, _, rfl⟩ := clipStep_some hs
    have hv : c.values = l.map Prod.snd ++ [b.2] := by simp [Cache.values, h1]
    have hk := h.keys
    have hm := h.mapKeys
    rw [hv] at hk hm
    rw [List.nodup_append] at hk
    refine ⟨hk.1, fun k => ?_⟩
    show (if k = b.2 then none else c.map k).isSome = true ↔ k ∈ l.map Prod.snd
    by_cases hkb : k = b.2
    · rw [if_pos hkb]
      simp only [Option.isSome_none, Bool.false_eq_true, false_iff]
      intro hmem
      exact hk.2.2 k hmem b.2 (by simp) hkb
    · rw [if_neg hkb, hm k]
      simp [hkb]
  · exact ⟨h.keys, h.mapKeys⟩

theorem Inv.clip {c : Cache K} (h : Inv c) : Inv c.clip := by
  unfold Cache.clip
  apply clipLoop_ind Inv
  · intro c c' h hs
    obtain ⟨l, b, h1, _, rfl⟩ := clipStep_some hs
    have hv : c.values = l.map Prod.snd ++ [b.2] := by simp [Cache.values, h1]
    have hk := h.keys
    have hi := h.ids
    rw [hv] at hk
    rw [h1] at hi
    rw [List.nodup_append] at hk
    rw [List.map_append, List.nodup_append] at hi
    refine ⟨hk.1, hi.1, fun k i => ?_, fun p hp => h.fresh p (by rw [h1]; exact List.mem_append_left _ hp)⟩
    show (if k = b.2 then none else c.map k) = some i ↔ (i, k) ∈ l
    by_cases hkb : k = b.2
    · rw [if_pos hkb]
      simp only [reduceCtorEq, false_iff]
      intro hmem
      exact hk.2.2 k (List.mem_map.2 ⟨_, hmem, rfl⟩) b.2 (by simp) hkb
    · rw [if_neg hkb, h.map k i, h1]
      simp only [List.mem_append, List.mem_singleton]
      constructor
      · rintro (h' | h')
        · exact h'
        · exact absurd (congrArg Prod.snd h') hkb
      · exact .inl
  · exact ⟨h.keys, h.ids, h.map, h.fresh⟩

theorem Inv.find? {c : Cache K} (h : Inv c) {i : Nat} {k : K} (hm : (i, k) ∈ c.list) :
    c.list.find? (fun p => p.1 = i) = some (i, k) := by
  have hi := h.ids
  revert hi hm
  induction c.list with
  | nil => intro hm; cases hm
  | cons p l ih =>
    intro hm hi
    rw [List.map_cons, List.nodup_cons] at hi
    rw [List.find?_cons]
    by_cases hp : p.1 = i
    · simp only [hp, decide_true]
      rcases List.mem_cons.1 hm with rfl | hm
      · rfl
      · exact absurd (List.mem_map.2 ⟨_, hm, hp.symm ▸ rfl⟩) hi.1
    · simp only [hp, decide_false]
      rcases List.mem_cons.1 hm with rfl | hm
      · exact absurd rfl hp
      · exact ih hm hi.2

theorem Inv.deref {c : Cache K} (h : Inv c) {i : Nat} {k : K} (hm : (i, k) ∈ c.list) : c.deref i = .ok k := by
  unfold Cache.deref; rw [h.find? hm]

/-- Erasing a node by identity is filtering by its key. -/
theorem eraseP_eq {l : List (Nat × K)} (hi : (l.map Prod.fst).Nodup) (hk : (l.map Prod.snd).Nodup)
    {i : Nat} {k : K} (hm : (i, k) ∈ l) : l.eraseP (fun q => q.1 = i) = l.filter (fun q => q.2 ≠ k) := by
  induction l with
  | nil => cases hm
  | cons p l ih =>
    rw [List.map_cons, List.nodup_cons] at hi hk
    rcases List.mem_cons.1 hm with rfl | hm
    · rw [List.eraseP_cons_of_pos (by simp), List.filter_cons_of_neg (by simp)]
      symm
      rw [List.filter_eq_self]
      intro q hq
      simp only [ne_eq, decide_not, Bool.not_eq_true', decide_eq_false_iff_not]
      intro e
      exact hk.1 (List.mem_map.2 ⟨q, hq, e⟩)
    · have h1 : p.1 ≠ i := fun e => hi.1 (List.mem_map.2 ⟨_, hm, e.symm⟩)
      have h2 : p.2 ≠ k := fun e => hk.1 (List.mem_map.2 ⟨_, hm, e.symm⟩)
      rw [List.eraseP_cons_of_neg (by simpa using h1), List.filter_cons_of_pos (by simpa using h2), ih hi.2 hk.2 hm]

theorem map_filter_snd (l : List (Nat × K)) (k : K) :
    (l.filter (fun q => q.2 ≠ k)).map Prod.snd = (l.map Prod.snd).filter (· ≠ k) := by
  rw [List.filter_map]; rfl

theorem Inv.moveToFront {c : Cache K} (h : Inv c) {i : Nat} {k : K} (hm : (i, k) ∈ c.list) :
    ∃ c' j l, c.moveToFront i = .ok c' ∧ Inv c' ∧ c'.list = (j, k) :: l ∧ abs c' = (abs c).touch k := by
  unfold Cache.moveToFront
  rw [h.find? hm]
  simp only
  split
  · next hh =>
    cases hl : c.list with
    | nil => rw [hl] at hm; cases hm
    | cons p l =>
      rw [hl] at hh
      simp only [List.head?_cons, Option.map_some, Option.some.injEq] at hh
      have hi := h.ids
      have hk := h.keys
      unfold Cache.values at hk
      rw [hl, List.map_cons, List.nodup_cons] at hi hk
      have hp : p = (i, k) := by
        rw [hl] at hm
        rcases List.mem_cons.1 hm with e | hm'
        · exact e.symm
        · exact absurd (List.mem_map.2 ⟨_, hm', hh.symm⟩) hi.1
      subst hp
      refine ⟨c, i, l, rfl, h, hl, ?_⟩
      unfold abs LRU.touch Cache.values
      rw [hl]
      simp only [List.map_cons]
      congr 1
      rw [List.filter_cons_of_neg (by simp)]
      congr 1
      symm
      rw [List.filter_eq_self]
      intro q hq
      simp only [ne_eq, decide_not, Bool.not_eq_true', decide_eq_false_iff_not]
      rintro rfl
      exact hk.1 hq
  · refine ⟨_, c.next, _, rfl, ?_, rfl, ?_⟩
    · rw [eraseP_eq h.ids h.keys hm]
      constructor
      · show ((c.next, k) :: c.list.filter (fun q => q.2 ≠ k)).map Prod.snd |>.Nodup
        rw [List.map_cons, map_filter_snd, List.nodup_cons]
        refine ⟨by simp, ?_⟩
        exact h.keys.filter _
      · show ((c.next, k) :: c.list.filter (fun q => q.2 ≠ k)).map Prod.fst |>.Nodup
        rw [List.map_cons, List.nodup_cons]
        constructor
        · intro hmem
          obtain ⟨q, hq, e⟩ := List.mem_map.1 hmem
          have := h.fresh q (List.mem_filter.1 hq).1
          simp at e; omega
        · exact h.ids.sublist ((List.filter_sublist (l := c.list)).map _)
      · intro k' i'
        show (if k' = k then some c.next else c.map k') = some i' ↔ (i', k') ∈ (c.next, k) :: c.list.filter (fun q => q.2 ≠ k)
        by_cases e : k' = k
        · subst e
          simp [eq_comm]
        · rw [if_neg e, h.map k' i']
          simp [e]
      · intro p hp
        rcases List.mem_cons.1 hp with rfl | hp
        · exact Nat.lt_succ_self _
        · exact Nat.lt_succ_of_lt (h.fresh p (List.mem_filter.1 hp).1)
    · rw [eraseP_eq h.ids h.keys hm]
      unfold abs LRU.touch Cache.values
      simp only [List.map_cons, map_filter_snd]

theorem Inv.map_none {c : Cache K} (h : Inv c) {k : K} (hk : k ∉ c.values) : c.map k = none := by
  cases hm : c.map k with
  | none => rfl
  | some i => exact absurd (List.mem_map.2 ⟨_, (h.map k i).1 hm, rfl⟩) hk

theorem Inv.map_some {c : Cache K} (h : Inv c) {k : K} (hk : k ∈ c.values) : ∃ i, c.map k = some i ∧ (i, k) ∈ c.list := by
  obtain ⟨p, hp, rfl⟩ := List.mem_map.1 hk
  exact ⟨p.1, (h.map _ _).2 hp, hp⟩

/-- `find` with an argument that reads as `k`. -/
theorem Inv.find {c : Cache K} (h : Inv c) (a : Arg K) (k : K) (ha : c.readArg a = .ok k) :
    (k ∈ c.values → ∃ c' j l, c.find a = .ok (c', some j) ∧ Inv c' ∧ c'.list = (j, k) :: l ∧ abs c' = (abs c).touch k) ∧
    (k ∉ c.values → c.find a = .ok (c, none)) := by
  constructor
  · intro hk
    obtain ⟨i, h1, h2⟩ := h.map_some hk
    obtain ⟨c', j, l, e, i', hl, habs⟩ := h.moveToFront h2
    refine ⟨c', j, l, ?_, i', hl, habs⟩
    unfold Cache.find
    rw [ha]
    simp only [Res.bind_ok, h1, e, hl, List.head?_cons]
  · intro hk
    unfold Cache.find
    rw [ha]
    simp only [Res.bind_ok, h.map_none hk]

/-- The state of `add` before `clip`. -/
theorem WInv.push {c : Cache K} (h : WInv c) {k : K} (hk : k ∉ c.values) :
    WInv { c with list := (c.next, k) :: c.list, next := c.next + 1,
                  map := fun k' => if k' = k then some c.next else c.map k' } := by
  refine ⟨?_, fun k' => ?_⟩
  · show ((c.next, k) :: c.list).map Prod.snd |>.Nodup
    rw [List.map_cons, List.nodup_cons]
    exact ⟨hk, h.keys⟩
  · show (if k' = k then some c.next else c.map k').isSome = true ↔ k' ∈ ((c.next, k) :: c.list).map Prod.snd
    by_cases e : k' = k
    · simp [e]
    · rw [if_neg e, h.mapKeys]
      simp [e, Cache.values]

theorem Inv.push {c : Cache K} (h : Inv c) {k : K} (hk : k ∉ c.values) :
    Inv { c with list := (c.next, k) :: c.list, next := c.next + 1,
                 map := fun k' => if k' = k then some c.next else c.map k' } := by
  refine ⟨(h.weak.push hk).keys, ?_, fun k' i' => ?_, fun p hp => ?_⟩
  · show ((c.next, k) :: c.list).map Prod.fst |>.Nodup
    rw [List.map_cons, List.nodup_cons]
    refine ⟨fun hm => ?_, h.ids⟩
    obtain ⟨p, hp, e⟩ := List.mem_map.1 hm
    have := h.fresh p hp
    simp at e; omega
  · show (if k' = k then some c.next else c.map k') = some i' ↔ (i', k') ∈ (c.next, k) :: c.list
    by_cases e : k' = k
    · subst e
      have : ¬ (i', k') ∈ c.list := fun hm => hk (List.mem_map.2 ⟨_, hm, rfl⟩)
      simp [this, eq_comm]
    · rw [if_neg e, h.map k' i']
      simp [e]
  · rcases List.mem_cons.1 hp with rfl | hp
    · exact Nat.lt_succ_self _
    · exact Nat.lt_succ_of_lt (h.fresh p hp)

theorem add_absent {c : Cache K} (h : WInv c) {k : K} (hk : k ∉ c.values) :
    c.add (.val k) = .ok { Cache.clip { c with list := (c.next, k) :: c.list, next := c.next + 1,
                                               map := fun k' => if k' = k then some c.next else c.map k' }
                           with last := true } := by
  unfold Cache.add
  simp only [Cache.readArg, Res.bind_ok, h.contains, hk, decide_false, Bool.not_false, if_true]

theorem add_present {c : Cache K} (h : WInv c) (a : Arg K) {k : K} (ha : c.readArg a = .ok k) (hk : k ∈ c.values) :
    c.add a = .ok { c with last := false } := by
  unfold Cache.add
  rw [ha]
  simp only [Res.bind_ok, h.contains, hk, decide_true, Bool.not_true, Bool.false_eq_true, if_false]

theorem last_abs (c : Cache K) (b : Bool) : abs { c with last := b } = { abs c with last := b } := rfl

theorem WInv.last {c : Cache K} (h : WInv c) (b : Bool) : WInv { c with last := b } := ⟨h.keys, h.mapKeys⟩
theorem Inv.last {c : Cache K} (h : Inv c) (b : Bool) : Inv { c with last := b } := ⟨h.keys, h.ids, h.map, h.fresh⟩

theorem WInv.add {c : Cache K} (h : WInv c) (k : K) :
    ∃ c', c.add (.val k) = .ok c' ∧ WInv c' ∧ abs c' = (abs c).add k := by
  by_cases hk : k ∈ c.values
  · refine ⟨_, add_present h _ rfl hk, h.last false, ?_⟩
    rw [last_abs]
    unfold LRU.add
    rw [if_pos (by exact hk)]
  · refine ⟨_, add_absent h hk, ((h.push hk).clip).last true, ?_⟩
    rw [last_abs, clip_abs]
    unfold LRU.add
    rw [if_neg (by exact hk)]
    rfl

theorem Inv.add {c : Cache K} (h : Inv c) (k : K) :
    ∃ c', c.add (.val k) = .ok c' ∧ Inv c' ∧ abs c' = (abs c).add k := by
  obtain ⟨c', h1, _, h3⟩ := h.weak.add k
  refine ⟨c', h1, ?_, h3⟩
  by_cases hk : k ∈ c.values
  · rw [add_present h.weak _ rfl hk] at h1
    injection h1 with h1
    rw [← h1]; exact h.last false
  · rw [add_absent h.weak hk] at h1
    injection h1 with h1
    rw [← h1]; exact ((h.push hk).clip).last true

theorem Inv.access_present {c : Cache K} (h : Inv c) (a : Arg K) (k : K) (ha : c.readArg a = .ok k) (hk : k ∈ c.values) :
    ∃ c' j l, c.access a = .ok (c', j) ∧ Inv c' ∧ c'.list = (j, k) :: l ∧
      abs c' = { (abs c).touch k with last := false } := by
  have ha' : Cache.readArg { c with last := false } a = .ok k := by
    cases a with
    | val k' => exact ha
    | node i => exact ha
  obtain ⟨c', j, l, h1, h2, h3, h4⟩ := ((h.last false).find a k ha').1 hk
  refine ⟨c', j, l, ?_, h2, h3, ?_⟩
  · unfold Cache.access
    rw [ha]
    simp only [Res.bind_ok, h.weak.contains, hk, decide_true, Bool.not_true, Bool.false_eq_true, if_false, h1]
    rw [h2.deref (k := k) (by rw [h3]; exact List.mem_cons_self)]
    rfl
  · rw [h4]; rfl

theorem LRU.filter_not_mem {k : K} {l : List K} (h : k ∉ l) : l.filter (· ≠ k) = l := by
  rw [List.filter_eq_self]
  intro x hx
  simp only [ne_eq, decide_not, Bool.not_eq_true', decide_eq_false_iff_not]
  rintro rfl; exact h hx

theorem Inv.access {c : Cache K} (h : Inv c) (hcap : c.values.length ≤ c.maxElements) (k : K) :
    (k ∈ c.values ∨ c.maxElements ≠ 0 → ∃ c' j l, c.access (.val k) = .ok (c', j) ∧ Inv c' ∧ c'.list = (j, k) :: l ∧
      (abs c).step (.access k) = .ok (abs c', .elem k)) ∧
    (k ∉ c.values → c.maxElements = 0 → c.access (.val k) = .ub) := by
  constructor
  · intro hor
    by_cases hk : k ∈ c.values
    · obtain ⟨c', j, l, h1, h2, h3, h4⟩ := h.access_present (.val k) k rfl hk
      refine ⟨c', j, l, h1, h2, h3, ?_⟩
      unfold LRU.step
      simp only
      rw [if_pos (by exact hk), h4]
    · have hc : c.maxElements ≠ 0 := by rcases hor with h' | h'
                                        · exact absurd h' hk
                                        · exact h'
      obtain ⟨c1, e1, i1, a1⟩ := h.add k
      have hkeys : c1.values = (k :: c.values).take c.maxElements := by
        have := congrArg LRU.keys a1
        unfold LRU.add at this
        rw [if_neg (by exact hk)] at this
        exact this
      obtain ⟨m, hm⟩ : ∃ m, c.maxElements = m + 1 := ⟨c.maxElements - 1, by omega⟩
      rw [hm, List.take_succ_cons] at hkeys
      have hk1 : k ∈ c1.values := by rw [hkeys]; exact List.mem_cons_self
      obtain ⟨c2, j, l, e2, i2, l2, a2⟩ := (i1.find (.val k) k rfl).1 hk1
      refine ⟨c2, j, l, ?_, i2, l2, ?_⟩
      · unfold Cache.access
        simp only [Cache.readArg, Res.bind_ok, h.weak.contains, hk, decide_false, Bool.not_false, if_true, e1, e2]
        rw [i2.deref (k := k) (by rw [l2]; exact List.mem_cons_self)]
        rfl
      · unfold LRU.step
        simp only
        rw [if_neg (by exact hk), if_neg (by exact hc), a2, ← a1]
        congr 2
        unfold LRU.touch
        have hnd := i1.keys
        have : (abs c1).keys = k :: c.values.take m := hkeys
        rw [hkeys, List.nodup_cons] at hnd
        rw [this, List.filter_cons_of_neg (by simp), LRU.filter_not_mem hnd.1]
        rw [← this]
  · intro hk hc
    obtain ⟨c1, e1, i1, a1⟩ := h.add k
    have hkeys : c1.values = [] := by
      have := congrArg LRU.keys a1
      unfold LRU.add at this
      rw [if_neg (by exact hk)] at this
      have h2 : c1.values = (k :: c.values).take c.maxElements := this
      rw [h2, hc]; rfl
    have e2 := (i1.find (.val k) k rfl).2 (by rw [hkeys]; simp)
    unfold Cache.access
    simp only [Cache.readArg, Res.bind_ok, h.weak.contains, hk, decide_false, Bool.not_false, if_true, e1, e2]

theorem Inv.remove {c : Cache K} (h : Inv c) (k : K) :
    ∃ c', c.remove (.val k) = .ok c' ∧ Inv c' ∧
      abs c' = { abs c with keys := c.values.filter (· ≠ k), last := decide (k ∈ c.values) } := by
  unfold Cache.remove
  simp only [Cache.readArg, Res.bind_ok]
  by_cases hk : k ∈ c.values
  · obtain ⟨i, h1, h2⟩ := h.map_some hk
    simp only [h1, h.deref h2, Res.bind_ok, eraseP_eq h.ids h.keys h2]
    refine ⟨_, rfl, ?_, ?_⟩
    · constructor
      · show ((c.list.filter (fun q => q.2 ≠ k)).map Prod.snd).Nodup
        rw [map_filter_snd]; exact h.keys.filter _
      · exact h.ids.sublist ((List.filter_sublist (l := c.list)).map _)
      · intro k' i'
        show (if k' = k then none else c.map k') = some i' ↔ (i', k') ∈ c.list.filter (fun q => q.2 ≠ k)
        by_cases e : k' = k
        · simp [e]
        · rw [if_neg e, h.map k' i']; simp [e]
      · intro p hp; exact h.fresh p (List.mem_filter.1 hp).1
    · unfold abs Cache.values
      simp only [map_filter_snd]
      have : k ∈ c.list.map Prod.snd := hk
      simp [this]
  · simp only [h.map_none hk]
    refine ⟨_, rfl, h.last false, ?_⟩
    rw [last_abs, LRU.filter_not_mem hk]
    simp [hk]; rfl

theorem Inv.clear {c : Cache K} : Inv c.clear := by
  constructor <;> simp [Cache.clear, Cache.values]

theorem Inv.setMax {c : Cache K} (h : Inv c) (n : Nat) : Inv { c with maxElements := n } :=
  ⟨h.keys, h.ids, h.map, h.fresh⟩

theorem new_inv (cap : Nat) : Inv (Cache.new (K := K) cap) ∧ abs (Cache.new (K := K) cap) = LRU.new cap := by
  unfold Cache.new Cache.setCapacity
  constructor
  · apply Inv.clip
    constructor <;> simp [Cache.newDefault, Cache.values]
  · rw [clip_abs]
    simp [abs, Cache.newDefault, Cache.values, LRU.trim, LRU.new]

theorem newDefault_inv : Inv (Cache.newDefault (K := K)) ∧ abs (Cache.newDefault (K := K)) = LRU.new 1024 := by
  constructor
  · constructor <;> simp [Cache.newDefault, Cache.values]
  · rfl

/-- Spec-level invariant: at most `cap` keys. -/
theorem trim_len (s : LRU K) : s.trim.keys.length ≤ s.trim.cap := by
  unfold LRU.trim; simp; omega

theorem step_len {s s' : LRU K} {op o} (h : s.keys.length ≤ s.cap) (e : s.step op = .ok (s', o)) :
    s'.keys.length ≤ s'.cap := by
  have hadd : ∀ k, (s.add k).keys.length ≤ (s.add k).cap := by
    intro k
    unfold LRU.add
    split
    · exact h
    · exact trim_len _
  have htouch : ∀ k, k ∈ s.keys → (s.touch k).keys.length ≤ (s.touch k).cap := by
    intro k hk
    unfold LRU.touch
    have : (s.keys.filter (· ≠ k)).length < s.keys.length :=
      List.length_filter_lt_length_iff_exists.2 ⟨k, hk, by simp⟩
    simp only [List.length_cons]
    omega
  have hfil : ∀ k, (s.keys.filter (· ≠ k)).length ≤ s.cap := fun k => Nat.le_trans (List.length_filter_le _ _) h
  cases op with
  | add k => injection e with e; injection e with e _; rw [← e]; exact hadd k
  | find k =>
    unfold LRU.step at e
    simp only at e
    split at e
    · next hk => injection e with e; injection e with e _; rw [← e]; exact htouch k hk
    · injection e with e; injection e with e _; rw [← e]; exact h
  | access k =>
    unfold LRU.step at e
    simp only at e
    split at e
    · next hk => injection e with e; injection e with e _; rw [← e]; exact htouch k hk
    · split at e
      · cases e
      · injection e with e; injection e with e _; rw [← e]; exact hadd k
  | remove k => injection e with e; injection e with e _; rw [← e]; exact hfil k
  | clear => injection e with e; injection e with e _; rw [← e]; exact Nat.zero_le _
  | setCapacity n => injection e with e; injection e with e _; rw [← e]; exact trim_len _
  | clip => injection e with e; injection e with e _; rw [← e]; exact trim_len _

/-- Refinement of one call: same outcome (including UB), same output, related states. -/
theorem Inv.step {c : Cache K} (h : Inv c) (hcap : c.values.length ≤ c.maxElements) (op : Op K) :
    (∃ c' o, Cache.step c op = .ok (c', o) ∧ Inv c' ∧ (abs c).step op = .ok (abs c', o)) ∨
    (Cache.step c op = .ub ∧ (abs c).step op = .ub) := by
  cases op with
  | add k =>
    obtain ⟨c', e, i, a⟩ := h.add k
    refine .inl ⟨c', .none, ?_, i, ?_⟩
    · simp only [Cache.step, e, Res.bind_ok]
    · simp only [LRU.step, a]
  | find k =>
    by_cases hk : k ∈ c.values
    · obtain ⟨c', j, l, e, i, hl, a⟩ := (h.find (.val k) k rfl).1 hk
      refine .inl ⟨c', .found (some k), ?_, i, ?_⟩
      · simp only [Cache.step, e, Res.bind_ok]
        rw [i.deref (k := k) (by rw [hl]; exact List.mem_cons_self)]
        rfl
      · unfold LRU.step; simp only; rw [if_pos (by exact hk), a]
    · have e := (h.find (.val k) k rfl).2 hk
      refine .inl ⟨c, .found none, ?_, h, ?_⟩
      · simp only [Cache.step, e, Res.bind_ok]
      · unfold LRU.step; simp only; rw [if_neg (by exact hk)]
  | access k =>
    by_cases hor : k ∈ c.values ∨ c.maxElements ≠ 0
    · obtain ⟨c', j, l, e, i, hl, a⟩ := (h.access hcap k).1 hor
      refine .inl ⟨c', .elem k, ?_, i, a⟩
      simp only [Cache.step, e, Res.bind_ok]
      rw [i.deref (k := k) (by rw [hl]; exact List.mem_cons_self)]
      rfl
    · have hk : k ∉ c.values := fun h' => hor (.inl h')
      have hc : c.maxElements = 0 := by
        by_cases h0 : c.maxElements = 0
        · exact h0
        · exact absurd (.inr h0) hor
      refine .inr ⟨?_, ?_⟩
      · simp only [Cache.step, (h.access hcap k).2 hk hc, Res.bind_ub]
      · unfold LRU.step; simp only; rw [if_neg (by exact hk), if_pos (by exact hc)]
  | remove k =>
    obtain ⟨c', e, i, a⟩ := h.remove k
    refine .inl ⟨c', .none, ?_, i, ?_⟩
    · simp only [Cache.step, e, Res.bind_ok]
    · simp only [LRU.step, a]; rfl
  | clear => exact .inl ⟨_, _, rfl, Inv.clear, rfl⟩
  | setCapacity n =>
    refine .inl ⟨_, _, rfl, (h.setMax n).clip, ?_⟩
    unfold LRU.step Cache.setCapacity
    simp only
    rw [clip_abs]; rfl
  | clip =>
    refine .inl ⟨_, _, rfl, h.clip, ?_⟩
    unfold LRU.step
    simp only
    rw [clip_abs]

theorem run_refines (ops : List (Op K)) : ∀ (c : Cache K), Inv c → c.values.length ≤ c.maxElements →
    (∃ c' os, Cache.run c ops = .ok (c', os) ∧ Inv c' ∧ c'.values.length ≤ c'.maxElements ∧
      (abs c).run ops = .ok (abs c', os)) ∨
    (Cache.run c ops = .ub ∧ (abs c).run ops = .ub) := by
  induction ops with
  | nil => intro c h hc; exact .inl ⟨c, [], rfl, h, hc, rfl⟩
  | cons op ops ih =>
    intro c h hc
    rcases h.step hc op with ⟨c1, o, e, i, a⟩ | ⟨e, a⟩
    · have hc1 : c1.values.length ≤ c1.maxElements := step_len (s := abs c) hc a
      rcases ih c1 i hc1 with ⟨c2, os, e2, i2, hc2, a2⟩ | ⟨e2, a2⟩
      · refine .inl ⟨c2, o :: os, ?_, i2, hc2, ?_⟩
        · unfold Cache.run; rw [e]; simp only [Res.bind_ok, e2]
        · unfold LRU.run; rw [a]; simp only [Res.bind_ok, a2]
      · refine .inr ⟨?_, ?_⟩
        · unfold Cache.run; rw [e]; simp only [Res.bind_ok, e2, Res.bind_ub]
        · unfold LRU.run; rw [a]; simp only [Res.bind_ok, a2, Res.bind_ub]
    · refine .inr ⟨?_, ?_⟩
      · unfold Cache.run; rw [e]; simp only [Res.bind_ub]
      · unfold LRU.run; rw [a]; simp only [Res.bind_ub]

end Verif.Cache
