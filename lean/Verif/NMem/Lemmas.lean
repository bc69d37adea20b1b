import Verif.NMem.Spec
import Mathlib.Data.List.Nodup
import Mathlib.Data.List.Perm.Basic

/-! N-ary trees with addresses, and how they lie in memory. -/

namespace Verif.NMem
open Nary (Slots Node)
open Spec
variable {α β γ : Type}

/-! ### Slots as lists -/

theorem toList_ofList (l : List (Option (Node β))) : (ofList l).toList = l := by
  induction l with
  | nil => rfl
  | cons x l ih =>
    rcases x with _ | ⟨b, k⟩
    · simp only [ofList, Slots.toList, ih]
    · simp only [ofList, Slots.toList, ih]

theorem ofList_toList (k : Slots β) : ofList k.toList = k := by
  induction k with
  | nil => rfl
  | null r ih => simp only [Slots.toList, ofList, ih]
  | node b k r _ ih => simp only [Slots.toList, ofList, ih]

theorem slot_ofList (l : List (Option (Node β))) (p : Nat) : slot (ofList l) p = l[p]?.join := by simp only [slot, toList_ofList]

theorem slot_none {k : Slots β} : (∀ n, slot k n = none) ↔ ∀ t ∈ k.toList, t = none := by
  constructor
  · intro h t ht
    obtain ⟨n, hn, e⟩ := List.mem_iff_getElem.1 ht
    have := h n
    simp only [slot, List.getElem?_eq_getElem hn, e] at this
    simpa using this
  · intro h n
    simp only [slot]
    cases hn : k.toList[n]? with
    | none => rfl
    | some t => rw [h t (List.mem_of_getElem? hn)]; rfl

theorem slot_some {k : Slots β} {p : Nat} {n : Node β} : slot k p = some n ↔ k.toList[p]? = some (some n) := by
  simp only [slot]
  cases k.toList[p]? with
  | none => simp
  | some t => simp

/-- The list around an element. -/
theorem split_at {γ : Type} {l : List γ} {p : Nat} {x : γ} (h : l[p]? = some x) :
    ∃ l1 l2, l = l1 ++ x :: l2 ∧ l1.length = p ∧ ∀ f : γ → γ, l.modify p f = l1 ++ f x :: l2 := by
  obtain ⟨hp, e⟩ := List.getElem?_eq_some_iff.1 h
  refine ⟨l.take p, l.drop (p + 1), ?_, by simp; omega, fun f => ?_⟩
  · rw [← e, ← List.drop_eq_getElem_cons hp, List.take_append_drop]
  · rw [List.modify_eq_take_cons_drop hp, e]

/-! ### Trees with addresses -/

/-- Address, `_parent` and value of a node. -/
structure Info (α : Type) where
  id : Nat
  par : Ptr
  val : α
deriving DecidableEq, Repr

abbrev AT (α : Type) := Tree (Info α)
abbrev AS (α : Type) := Slots (Info α)

def ids : AS α → List Nat
  | .nil => []
  | .null r => ids r
  | .node b k r => b.id :: (ids k ++ ids r)

def idsT : AT α → List Nat
  | none => []
  | some (b, k) => b.id :: ids k

def ptrT (t : AT α) : Ptr := t.map (·.1.id)

def ptrs (k : AS α) : List Ptr := k.toList.map ptrT

def Rep (m : Nat → Option (Cell α)) : AS α → Prop
  | .nil => True
  | .null r => Rep m r
  | .node b k r => m b.id = some ⟨b.par, b.val, ptrs k⟩ ∧ Rep m k ∧ Rep m r

def RepT (m : Nat → Option (Cell α)) : AT α → Prop
  | none => True
  | some (b, k) => m b.id = some ⟨b.par, b.val, ptrs k⟩ ∧ Rep m k

def vals : AS α → Slots α
  | .nil => .nil
  | .null r => .null (vals r)
  | .node b k r => .node b.val (vals k) (vals r)

def valsT (t : AT α) : Tree α := t.map fun n => (n.1.val, vals n.2)

theorem ids_toList (k : AS α) : ids k = k.toList.flatMap idsT := by
  induction k with
  | nil => rfl
  | null r ih => simpa [ids, Slots.toList, idsT] using ih
  | node b k r _ ih => simp [ids, Slots.toList, idsT, ih]

theorem ids_ofList (l : List (AT α)) : ids (ofList l) = l.flatMap idsT := by rw [ids_toList, toList_ofList]

theorem rep_toList {m : Nat → Option (Cell α)} (k : AS α) : Rep m k ↔ ∀ t ∈ k.toList, RepT m t := by
  induction k with
  | nil => simp [Rep, Slots.toList]
  | null r ih => simp [Rep, Slots.toList, ih, RepT]
  | node b k r _ ih => simp [Rep, Slots.toList, ih, RepT, and_assoc]

theorem rep_ofList {m : Nat → Option (Cell α)} {l : List (AT α)} : Rep m (ofList l) ↔ ∀ t ∈ l, RepT m t := by
  rw [rep_toList, toList_ofList]

theorem ptrs_ofList (l : List (AT α)) : ptrs (ofList l) = l.map ptrT := by simp only [ptrs, toList_ofList]

theorem vals_toList (k : AS α) : (vals k).toList = k.toList.map valsT := by
  induction k with
  | nil => rfl
  | null r ih => simp [vals, Slots.toList, ih, valsT]
  | node b k r _ ih => simp [vals, Slots.toList, ih, valsT]

theorem vals_ofList (l : List (AT α)) : vals (ofList l) = ofList (l.map valsT) := by
  rw [← ofList_toList (vals (ofList l)), vals_toList, toList_ofList]

theorem vals_slot (k : AS α) (p : Nat) : slot (vals k) p = valsT (slot k p) := by
  simp only [slot, vals_toList, List.getElem?_map]
  cases k.toList[p]? with
  | none => rfl
  | some t => rfl

theorem valsT_none {t : AT α} : valsT t = none ↔ t = none := by cases t <;> simp [valsT]

theorem ptrT_none {t : AT α} : ptrT t = none ↔ t = none := by cases t <;> simp [ptrT]

theorem ptrs_get (k : AS α) (p : Nat) : (ptrs k)[p]?.join = ptrT (slot k p) := by
  simp only [ptrs, slot, List.getElem?_map]
  cases k.toList[p]? with
  | none => rfl
  | some t => rfl

theorem length_ptrs (k : AS α) : (ptrs k).length = k.toList.length := by simp [ptrs]

theorem mem_ids {k : AS α} {i : Nat} : i ∈ ids k ↔ ∃ p, i ∈ idsT (slot k p) := by
  rw [ids_toList, List.mem_flatMap]
  constructor
  · rintro ⟨t, ht, hi⟩
    obtain ⟨n, hn, e⟩ := List.mem_iff_getElem.1 ht
    exact ⟨n, by simpa [slot, List.getElem?_eq_getElem hn, e] using hi⟩
  · rintro ⟨p, hi⟩
    simp only [slot] at hi
    cases h : k.toList[p]? with
    | none => rw [h] at hi; cases hi
    | some t =>
      rw [h] at hi
      exact ⟨t, List.mem_of_getElem? h, hi⟩

theorem rep_slot {m : Nat → Option (Cell α)} {k : AS α} (h : Rep m k) (p : Nat) : RepT m (slot k p) := by
  rw [rep_toList] at h
  simp only [slot]
  cases hk : k.toList[p]? with
  | none => trivial
  | some t => exact h t (List.mem_of_getElem? hk)

theorem nodup_slot {k : AS α} (h : (ids k).Nodup) (p : Nat) : (idsT (slot k p)).Nodup := by
  rw [ids_toList] at h
  simp only [slot]
  cases hk : k.toList[p]? with
  | none => exact List.nodup_nil
  | some t => exact (List.nodup_flatMap.1 h).1 t (List.mem_of_getElem? hk)

/-! ### Paths -/

theorem sub_nil (t : Tree β) : sub t [] = t := by cases t <;> rfl

theorem sub_none (path : List Nat) : sub (none : Tree β) path = none := by cases path <;> rfl

theorem sub_append (p q : List Nat) : ∀ t : Tree β, sub t (p ++ q) = sub (sub t p) q := by
  induction p with
  | nil => intro t; rw [sub_nil]; rfl
  | cons a p ih =>
    intro t
    rcases t with _ | ⟨b, k⟩
    · rw [sub_none, sub_none, sub_none]
    · exact ih _

theorem put_nil (t u : Tree β) : put t [] u = u := by cases t <;> rfl

theorem valsT_sub (path : List Nat) : ∀ t : AT α, valsT (sub t path) = sub (valsT t) path := by
  induction path with
  | nil => intro t; rw [sub_nil, sub_nil]
  | cons p path ih =>
    intro t
    rcases t with _ | ⟨b, k⟩
    · rfl
    · show valsT (sub (slot k p) path) = sub (slot (vals k) p) path
      rw [ih, vals_slot]

theorem valsT_put (path : List Nat) : ∀ t u : AT α, valsT (put t path u) = put (valsT t) path (valsT u) := by
  induction path with
  | nil => intro t u; rw [put_nil, put_nil]
  | cons p path ih =>
    intro t u
    rcases t with _ | ⟨b, k⟩
    · rfl
    · show some (b.val, vals (ofList (k.toList.modify p fun t => put t path u))) =
        some (b.val, ofList ((vals k).toList.modify p fun t => put t path (valsT u)))
      rw [vals_ofList, vals_toList]
      congr 3
      apply List.ext_getElem?
      intro n
      simp only [List.getElem?_map, List.getElem?_modify]
      cases k.toList[n]? with
      | none => rfl
      | some t =>
        by_cases h : p = n
        · simp [h, ih]
        · simp [h]

theorem valsT_missing (path : List Nat) : ∀ t : AT α, missing (valsT t) path = missing t path := by
  induction path with
  | nil => intro t; rcases t with _ | ⟨b, k⟩ <;> rfl
  | cons p path ih =>
    intro t
    rcases t with _ | ⟨b, k⟩
    · rfl
    · show (if p < (vals k).toList.length then missing (slot (vals k) p) path else Exc.outOfRange) =
        if p < k.toList.length then missing (slot k p) path else .outOfRange
      rw [vals_slot, ih, vals_toList, List.length_map]

/-- Replacing a subtree exchanges its addresses. -/
theorem put_perm (path : List Nat) : ∀ {t : AT α} {n : Node (Info α)}, sub t path = some n →
    ∃ rest, (idsT t).Perm (idsT (some n) ++ rest) ∧ ∀ u, (idsT (put t path u)).Perm (idsT u ++ rest) := by
  induction path with
  | nil =>
    intro t n h
    rw [sub_nil] at h
    exact ⟨[], by rw [h, List.append_nil], fun u => by rw [put_nil, List.append_nil]⟩
  | cons p path ih =>
    intro t n h
    rcases t with _ | ⟨b, k⟩
    · cases h
    · have h : sub (slot k p) path = some n := h
      obtain ⟨x, hx⟩ : ∃ x, slot k p = some x := by
        cases hs : slot k p with
        | none => rw [hs, sub_none] at h; cases h
        | some x => exact ⟨x, rfl⟩
      obtain ⟨rest, h1, h2⟩ := ih h
      obtain ⟨l1, l2, e1, -, e2⟩ := split_at (slot_some.1 hx)
      rw [hx] at h1 h2
      refine ⟨b.id :: (l1.flatMap idsT ++ (rest ++ l2.flatMap idsT)), ?_, fun u => ?_⟩
      · show (b.id :: ids k).Perm _
        rw [ids_toList, e1, List.flatMap_append, List.flatMap_cons]
        refine List.Perm.trans (.cons _ ?_) List.perm_middle.symm
        refine List.Perm.trans ((h1.append_right _).append_left _) ?_
        rw [List.append_assoc]
        refine List.Perm.trans List.perm_append_comm ?_
        rw [List.append_assoc]
        exact List.perm_append_comm.append_left _
      · show (b.id :: ids (ofList (k.toList.modify p fun t => put t path u))).Perm _
        rw [ids_ofList, e2, List.flatMap_append, List.flatMap_cons]
        refine List.Perm.trans (.cons _ ?_) List.perm_middle.symm
        refine List.Perm.trans (((h2 u).append_right _).append_left _) ?_
        rw [List.append_assoc]
        refine List.Perm.trans List.perm_append_comm ?_
        rw [List.append_assoc]
        exact List.perm_append_comm.append_left _

theorem ids_sub {path : List Nat} {t : AT α} {n : Node (Info α)} (h : sub t path = some n) {i : Nat} (hi : i ∈ idsT (some n)) : i ∈ idsT t := by
  obtain ⟨rest, h1, -⟩ := put_perm path h
  exact h1.mem_iff.2 (List.mem_append_left _ hi)

theorem nodup_sub {path : List Nat} {t : AT α} {n : Node (Info α)} (h : sub t path = some n) (hn : (idsT t).Nodup) : (idsT (some n)).Nodup := by
  obtain ⟨rest, h1, -⟩ := put_perm path h
  exact (List.nodup_append.1 (h1.nodup_iff.1 hn)).1

theorem rep_sub {m : Nat → Option (Cell α)} (path : List Nat) : ∀ {t : AT α}, RepT m t → RepT m (sub t path) := by
  induction path with
  | nil => intro t h; rw [sub_nil]; exact h
  | cons p path ih =>
    intro t h
    rcases t with _ | ⟨b, k⟩
    · trivial
    · exact ih (rep_slot h.2 p)

theorem rep_congrS {m m' : Nat → Option (Cell α)} {k : AS α} (h : Rep m k) (hm : ∀ i ∈ ids k, m' i = m i) : Rep m' k := by
  induction k with
  | nil => trivial
  | null r ih => exact ih h hm
  | node b k r ihk ihr =>
    refine ⟨by rw [hm _ (by simp [ids])]; exact h.1, ihk h.2.1 fun i hi => hm i (by simp [ids, hi]), ihr h.2.2 fun i hi => hm i (by simp [ids, hi])⟩

theorem rep_congr {m m' : Nat → Option (Cell α)} {t : AT α} (h : RepT m t) (hm : ∀ i ∈ idsT t, m' i = m i) : RepT m' t := by
  rcases t with _ | ⟨b, k⟩
  · trivial
  · exact ⟨by rw [hm _ (by simp [idsT])]; exact h.1, rep_congrS h.2 fun i hi => hm i (by simp [idsT, hi])⟩

theorem ptrT_put (path : List Nat) {t u : AT α} {n : Node (Info α)} (h : sub t path = some n) (hu : ptrT u = some n.1.id) :
    ptrT (put t path u) = ptrT t := by
  cases path with
  | nil => rw [sub_nil] at h; rw [put_nil, hu, h]; rfl
  | cons p path =>
    rcases t with _ | ⟨b, k⟩
    · rfl
    · rfl

/-- Memory that changes only inside the replaced subtree. -/
theorem rep_put {m m' : Nat → Option (Cell α)} (path : List Nat) : ∀ {t u : AT α} {n : Node (Info α)}, RepT m t → (idsT t).Nodup → sub t path = some n →
    (∀ i ∈ idsT t, i ∉ idsT (some n) → m' i = m i) → RepT m' u → ptrT u = some n.1.id → RepT m' (put t path u) := by
  induction path with
  | nil => intro t u n _ _ _ _ hu _; rw [put_nil]; exact hu
  | cons p path ih =>
    intro t u n h hn hs hm hu hp
    rcases t with _ | ⟨b, k⟩
    · cases hs
    · have hs : sub (slot k p) path = some n := hs
      have hn : (b.id :: ids k).Nodup := hn
      rw [List.nodup_cons] at hn
      have hin : ∀ i ∈ idsT (some n), i ∈ idsT (slot k p) := fun i hi => ids_sub hs hi
      have hb : b.id ∉ idsT (some n) := fun hc => hn.1 (mem_ids.2 ⟨p, hin _ hc⟩)
      refine ⟨?_, ?_⟩
      · rw [hm _ (by simp [idsT]) hb, h.1]
        congr 2
        simp only [ptrs, toList_ofList]
        apply List.ext_getElem?
        intro j
        simp only [List.getElem?_map, List.getElem?_modify]
        by_cases hj : p = j
        · subst hj
          simp only [if_true]
          cases hk : k.toList[p]? with
          | none => rfl
          | some t =>
            have : slot k p = t := by simp [slot, hk]
            rw [this] at hs
            simp [ptrT_put path hs hp]
        · simp [hj]
      · rw [rep_ofList]
        obtain ⟨x, hx⟩ : ∃ x, slot k p = some x := by
          cases hs' : slot k p with
          | none => rw [hs', sub_none] at hs; cases hs
          | some x => exact ⟨x, rfl⟩
        obtain ⟨l1, l2, e1, -, e2⟩ := split_at (slot_some.1 hx)
        have hn2 := hn.2
        rw [ids_toList, e1, List.flatMap_append, List.flatMap_cons] at hn2
        have hr := (rep_toList k).1 h.2
        rw [e1] at hr
        rw [e2]
        have hmem : ∀ y, y ∈ k.toList → ∀ i ∈ idsT y, i ∈ ids k := fun y hy i hi => by
          rw [ids_toList]; exact List.mem_flatMap.2 ⟨y, hy, hi⟩
        obtain ⟨-, n2, n3⟩ := List.nodup_append.1 hn2
        obtain ⟨-, -, n4⟩ := List.nodup_append.1 n2
        intro y hy
        simp only [List.mem_append, List.mem_cons] at hy
        rcases hy with hy | rfl | hy
        · refine rep_congr (hr y (by simp [hy])) fun i hi => hm i (List.mem_cons_of_mem _ (hmem y (by simp [e1, hy]) i hi)) fun hc => ?_
          have := hin i hc
          rw [hx] at this
          exact n3 i (List.mem_flatMap.2 ⟨y, hy, hi⟩) i (List.mem_append_left _ this) rfl
        · refine ih (hr _ (by simp)) ?_ ?_ ?_ hu hp
          · rw [← hx]; exact nodup_slot hn.2 p
          · rw [← hx]; exact hs
          · intro i hi hni
            exact hm i (List.mem_cons_of_mem _ (hmem (some x) (by simp [e1]) i hi)) hni
        · refine rep_congr (hr y (by simp [hy])) fun i hi => hm i (List.mem_cons_of_mem _ (hmem y (by simp [e1, hy]) i hi)) fun hc => ?_
          have := hin i hc
          rw [hx] at this
          exact n4 i this i (List.mem_flatMap.2 ⟨y, hy, hi⟩) rfl

/-! ### Reading -/

theorem cell_eq {s : St α} {i : Nat} {c : Cell α} (h : s.mem i = some c) : cell s i = .ok c := by simp only [cell, h]

theorem change_eq {s : St α} {i : Nat} {c : Cell α} (h : s.mem i = some c) (f : Cell α → Cell α) : change s i f = .ok (s.set i (f c)) := by
  simp only [change, h]

theorem set_mem (s : St α) (i j : Nat) (c : Cell α) : (s.set i c).mem j = if j = i then some c else s.mem j := rfl

theorem set_self (s : St α) (i : Nat) (c : Cell α) : (s.set i c).mem i = some c := by simp [St.set]

theorem set_other (s : St α) {i j : Nat} (c : Cell α) (h : j ≠ i) : (s.set i c).mem j = s.mem j := by simp [St.set, h]

theorem resolve_rep {s : St α} (path : List Nat) : ∀ {t : AT α}, RepT s.mem t → resolve s (ptrT t) path =
    match sub t path with
    | some n => .ok n.1.id
    | none => .exc (missing t path) := by
  induction path with
  | nil =>
    intro t _
    rcases t with _ | ⟨b, k⟩ <;> rfl
  | cons p path ih =>
    intro t h
    rcases t with _ | ⟨b, k⟩
    · rfl
    · simp only [ptrT, Option.map_some, resolve, cell_eq h.1, Res.bind_ok, sub, missing]
      have := ih (rep_slot h.2 p)
      by_cases hp : p < k.toList.length
      · have e : (ptrs k)[p]? = some (ptrT (slot k p)) := by
          simp only [ptrs, slot, List.getElem?_map, List.getElem?_eq_getElem hp]; rfl
        simp only [e, this, hp, if_true]
      · have e : (ptrs k)[p]? = none := by simp [ptrs]; omega
        have e2 : slot k p = none := by simp [slot, List.getElem?_eq_none (by omega : k.toList.length ≤ p)]
        simp only [e, e2, sub_none, hp, if_false]

theorem follow_rep {s : St α} (path : List Nat) : ∀ {t : AT α}, RepT s.mem t → follow s (ptrT t) path = ptrT (sub t path) := by
  induction path with
  | nil =>
    intro t _
    rcases t with _ | ⟨b, k⟩ <;> rfl
  | cons p path ih =>
    intro t h
    rcases t with _ | ⟨b, k⟩
    · rfl
    · simp only [ptrT, Option.map_some, follow, h.1, sub]
      rw [ptrs_get, ih (rep_slot h.2 p)]
      rfl

/-! ### Deleting -/

def without (s : St α) (l : List Nat) : St α := { s with mem := fun j => if j ∈ l then none else s.mem j }

theorem without_nil (s : St α) : without s [] = s := by simp [without]

theorem without_without (s : St α) (l l' : List Nat) : without (without s l) l' = without s (l' ++ l) := by
  simp only [without, St.mk.injEq, and_true]
  funext j
  by_cases h1 : j ∈ l' <;> by_cases h2 : j ∈ l <;> simp [h1, h2]

theorem drop_without (s : St α) (l : List Nat) (i : Nat) : (without s l).drop i = without s (i :: l) := by
  simp only [without, St.drop, St.mk.injEq, and_true]
  funext j
  by_cases h1 : j = i <;> by_cases h2 : j ∈ l <;> simp [h1, h2]

theorem without_congr (s : St α) {l l' : List Nat} (h : ∀ i, i ∈ l ↔ i ∈ l') : without s l = without s l' := by
  simp only [without, h]

theorem deleteAll_rep (k : AS α) : ∀ {s : St α} {fuel : Nat}, Rep s.mem k → (ids k).Nodup → (ids k).length ≤ fuel →
    deleteAll (deleteNode fuel) s (ptrs k) = .ok (without s (ids k)) := by
  induction k with
  | nil => intro s fuel _ _ _; rw [show ids (Slots.nil : AS α) = [] from rfl, without_nil]; rfl
  | null r ih => intro s fuel h hn hl; exact ih h hn hl
  | node b k r ihk ihr =>
    intro s fuel h hn hl
    obtain ⟨h1, h2, h3⟩ := h
    simp only [ids, List.length_cons, List.length_append] at hl
    obtain ⟨f, rfl⟩ : ∃ f, fuel = f + 1 := ⟨fuel - 1, by omega⟩
    simp only [ids, List.nodup_cons, List.mem_append, not_or] at hn
    obtain ⟨⟨n1, n2⟩, n3⟩ := hn
    obtain ⟨n4, n5, n6⟩ := List.nodup_append.1 n3
    have e1 : deleteNode (f + 1) s b.id = .ok (without s (b.id :: ids k)) := by
      have : (without s (ids k)).mem b.id = some ⟨b.par, b.val, ptrs k⟩ := by simp only [without, if_neg n1, h1]
      simp only [deleteNode, cell_eq h1, Res.bind_ok, ihk h2 n4 (show (ids k).length ≤ f by omega), cell_eq this, drop_without]
    have h3' : Rep (without s (b.id :: ids k)).mem r := rep_congrS h3 fun i hi => by
      have : i ∉ b.id :: ids k := by
        simp only [List.mem_cons, not_or]
        exact ⟨fun e => n2 (e ▸ hi), fun hc => n6 i hc i hi rfl⟩
      simp only [without, if_neg this]
    show (do let s ← deleteNode (f + 1) s b.id; deleteAll (deleteNode (f + 1)) s (ptrs r)) = _
    rw [e1, Res.bind_ok, ihr h3' n5 (by omega), without_without]
    congr 1
    exact without_congr s fun i => by simp [ids]; tauto

theorem deletePtr_rep {s : St α} {t : AT α} {fuel : Nat} (h : RepT s.mem t) (hn : (idsT t).Nodup) (hl : (idsT t).length ≤ fuel) :
    deletePtr fuel s (ptrT t) = .ok (without s (idsT t)) := by
  rcases t with _ | ⟨b, k⟩
  · rw [show idsT (none : AT α) = [] from rfl, without_nil]; rfl
  · have := deleteAll_rep (.node b k .nil) (s := s) (fuel := fuel) ⟨h.1, h.2, trivial⟩ (by simpa [ids, idsT] using hn) (by simpa [ids, idsT] using hl)
    simp only [ids, List.append_nil] at this
    simp only [ptrT, Option.map_some, deletePtr, idsT]
    rw [← this]
    simp only [ptrs, Slots.toList, List.map_cons, List.map_nil, ptrT, Option.map_some, deleteAll]
    cases deleteNode fuel s b.id <;> rfl

/-- Distinct addresses below `n` are at most `n`. -/
theorem length_le_of_nodup {l : List Nat} {n : Nat} (hn : l.Nodup) (h : ∀ i ∈ l, i < n) : l.length ≤ n := by
  have := (List.subperm_of_subset hn (l₂ := List.range n) fun i hi => List.mem_range.2 (h i hi)).length_le
  simpa using this

end Verif.NMem
