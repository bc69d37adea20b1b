import Verif.Mem.BinSpec
import Verif.Mem.Follow

/-! Changes of one node of a tree in memory. -/

namespace Verif.Mem
open Avl (Tree)
open Avl.Spec (ParentsExact)
open Spec
set_option linter.unusedSectionVars false
variable {α : Type}

def putAt : Tree α → List Bool → Tree α → Tree α
  | _, [], u => u
  | .nil, _ :: _, _ => .nil
  | .node i p v h l r, true :: path, u => .node i p v h l (putAt r path u)
  | .node i p v h l r, false :: path, u => .node i p v h (putAt l path u) r

/-- The values and the shape. -/
def erase : Tree α → BT α
  | .nil => .nil
  | .node _ _ v _ l r => .node v (erase l) (erase r)

theorem erase_nil {t : Tree α} : erase t = .nil ↔ t = .nil := by cases t <;> simp [erase]

theorem erase_subAt (path : List Bool) : ∀ t : Tree α, erase (subAt t path) = (erase t).at path := by
  induction path with
  | nil => intro t; cases t <;> rfl
  | cons b path ih =>
    intro t
    cases t with
    | nil => rfl
    | node i p v h l r => cases b <;> exact ih _

theorem erase_putAt (path : List Bool) : ∀ t u : Tree α, erase (putAt t path u) = (erase t).put path (erase u) := by
  induction path with
  | nil => intro t u; cases t <;> rfl
  | cons b path ih =>
    intro t u
    cases t with
    | nil => rfl
    | node i p v h l r => cases b <;> simp [putAt, erase, BT.put, ih]

theorem erase_copy (t : Tree α) : ∀ par next, erase (t.copy par next).1 = erase t := by
  induction t with
  | nil => intro _ _; rfl
  | node i p v h l r ihl ihr => intro par next; simp only [Tree.copy, erase, ihl, ihr]

theorem erase_setParent (p : Ptr) (t : Tree α) : erase (t.setParent p) = erase t := by cases t <;> rfl

theorem ids_setPar (p : Ptr) (t : Tree α) : ids (t.setParent p) = ids t := by cases t <;> rfl

theorem ptr_setPar (p : Ptr) (t : Tree α) : ptr (t.setParent p) = ptr t := by cases t <;> rfl

theorem looks_rep {s : St α} {t : Tree α} (h : Rep s.mem t) : Looks s (ptr t) (erase t) := by
  induction t with
  | nil => exact .null
  | node i p v hh l r ihl ihr => exact .node (c := ⟨p, v, hh, ptr l, ptr r⟩) h.1 (ihl h.2.1) (ihr h.2.2)

theorem looks_unique {s : St α} {p : Ptr} {t u : BT α} (h : Looks s p t) : Looks s p u → t = u := by
  induction h generalizing u with
  | null => intro h'; cases h'; rfl
  | node h1 _ _ ih1 ih2 =>
    intro h'
    cases h' with
    | node g1 g2 g3 =>
      rw [h1] at g1
      cases g1
      rw [ih1 g2, ih2 g3]

theorem resolve_rep {s : St α} (path : List Bool) : ∀ {t : Tree α}, Rep s.mem t → resolve s (ptr t) path =
    match ptr (subAt t path) with
    | some i => .ok i
    | none => .exc .invalidNode := by
  induction path with
  | nil => intro t _; cases t <;> rfl
  | cons b path ih =>
    intro t h
    cases t with
    | nil => rfl
    | node i p v hh l r =>
      simp only [ptr_node, resolve, cell_eq h.1, Res.bind_ok, subAt]
      cases b with
      | true => exact ih h.2.2
      | false => exact ih h.2.1

theorem ptr_putAt (path : List Bool) : ∀ {t u : Tree α}, ptr u = ptr (subAt t path) → ptr (putAt t path u) = ptr t := by
  induction path with
  | nil => intro t u h; cases t <;> simpa [putAt, subAt] using h
  | cons b path ih =>
    intro t u h
    cases t with
    | nil => rfl
    | node i p v hh l r => cases b <;> rfl

theorem mem_subAt (path : List Bool) : ∀ {t : Tree α} {i : Nat}, i ∈ ids (subAt t path) → i ∈ ids t := by
  induction path with
  | nil => intro t i h; cases t <;> exact h
  | cons b path ih =>
    intro t i h
    cases t with
    | nil => exact h
    | node j p v hh l r =>
      cases b with
      | true => have := ih (t := r) h; simp [ids, this]
      | false => have := ih (t := l) h; simp [ids, this]

theorem rep_subAt {m : Nat → Option (Cell α)} (path : List Bool) : ∀ {t : Tree α}, Rep m t → Rep m (subAt t path) := by
  induction path with
  | nil => intro t h; cases t <;> exact h
  | cons b path ih =>
    intro t h
    cases t with
    | nil => exact h
    | node j p v hh l r =>
      cases b with
      | true => exact ih h.2.2
      | false => exact ih h.2.1

theorem nodup_subAt (path : List Bool) : ∀ {t : Tree α}, (ids t).Nodup → (ids (subAt t path)).Nodup := by
  induction path with
  | nil => intro t h; cases t <;> exact h
  | cons b path ih =>
    intro t h
    cases t with
    | nil => exact h
    | node j p v hh l r =>
      obtain ⟨-, -, n3, n4, -⟩ := nodup_node.1 h
      cases b with
      | true => exact ih n4
      | false => exact ih n3

theorem mem_putAt (path : List Bool) : ∀ {t u : Tree α} {i : Nat}, (ids t).Nodup → i ∈ ids (putAt t path u) →
    i ∈ ids u ∨ (i ∈ ids t ∧ i ∉ ids (subAt t path)) := by
  induction path with
  | nil => intro t u i _ h; cases t <;> exact .inl h
  | cons b path ih =>
    intro t u i hn h
    cases t with
    | nil => cases h
    | node j p v hh l r =>
      obtain ⟨n1, n2, n3, n4, n5⟩ := nodup_node.1 hn
      cases b with
      | true =>
        simp only [putAt, ids, List.mem_cons, List.mem_append] at h
        rcases h with rfl | h | h
        · exact .inr ⟨by simp [ids], fun hc => n2 (mem_subAt path (t := r) hc)⟩
        · exact .inr ⟨by simp [ids, h], fun hc => n5 i h (mem_subAt path (t := r) hc)⟩
        · rcases ih n4 h with h | ⟨h1, h2⟩
          · exact .inl h
          · exact .inr ⟨by simp [ids, h1], h2⟩
      | false =>
        simp only [putAt, ids, List.mem_cons, List.mem_append] at h
        rcases h with rfl | h | h
        · exact .inr ⟨by simp [ids], fun hc => n1 (mem_subAt path (t := l) hc)⟩
        · rcases ih n3 h with h | ⟨h1, h2⟩
          · exact .inl h
          · exact .inr ⟨by simp [ids, h1], h2⟩
        · exact .inr ⟨by simp [ids, h], fun hc => n5 i (mem_subAt path (t := l) hc) h⟩

theorem mem_putAt_old (path : List Bool) : ∀ {t u : Tree α} {i : Nat}, i ∈ ids t → i ∉ ids (subAt t path) →
    i ∈ ids (putAt t path u) := by
  induction path with
  | nil => intro t u i h h'; cases t <;> exact absurd h h'
  | cons b path ih =>
    intro t u i h h'
    cases t with
    | nil => cases h
    | node j p v hh l r =>
      simp only [ids, List.mem_cons, List.mem_append] at h
      cases b with
      | true =>
        simp only [putAt, ids, List.mem_cons, List.mem_append]
        rcases h with h | h | h
        · exact .inl h
        · exact .inr (.inl h)
        · exact .inr (.inr (ih h h'))
      | false =>
        simp only [putAt, ids, List.mem_cons, List.mem_append]
        rcases h with h | h | h
        · exact .inl h
        · exact .inr (.inl (ih h h'))
        · exact .inr (.inr h)

theorem mem_putAt_new (path : List Bool) : ∀ {t u : Tree α} {i : Nat}, subAt t path ≠ .nil → i ∈ ids u →
    i ∈ ids (putAt t path u) := by
  induction path with
  | nil => intro t u i _ h; cases t <;> exact h
  | cons b path ih =>
    intro t u i hs h
    cases t with
    | nil => exact absurd rfl hs
    | node j p v hh l r =>
      cases b with
      | true => have := ih (t := r) hs h; simp [putAt, ids, this]
      | false => have := ih (t := l) hs h; simp [putAt, ids, this]

theorem nodup_putAt (path : List Bool) : ∀ {t u : Tree α}, (ids t).Nodup → (ids u).Nodup →
    (∀ i ∈ ids u, i ∈ ids t → i ∈ ids (subAt t path)) → (ids (putAt t path u)).Nodup := by
  induction path with
  | nil => intro t u _ h _; cases t <;> exact h
  | cons b path ih =>
    intro t u hn hu hd
    cases t with
    | nil => exact hn
    | node j p v hh l r =>
      obtain ⟨n1, n2, n3, n4, n5⟩ := nodup_node.1 hn
      cases b with
      | true =>
        have hd' : ∀ i ∈ ids u, i ∈ ids r → i ∈ ids (subAt r path) := fun i h1 h2 => hd i h1 (by simp [ids, h2])
        refine nodup_node.2 ⟨n1, fun hc => ?_, n3, ih n4 hu hd', fun i h1 h2 => ?_⟩
        · rcases mem_putAt path n4 hc with h | ⟨h, -⟩
          · exact n2 (mem_subAt path (hd j h (by simp [ids])))
          · exact n2 h
        · rcases mem_putAt path n4 h2 with h | ⟨h, -⟩
          · exact n5 i h1 (mem_subAt path (hd i h (by simp [ids, h1])))
          · exact n5 i h1 h
      | false =>
        have hd' : ∀ i ∈ ids u, i ∈ ids l → i ∈ ids (subAt l path) := fun i h1 h2 => hd i h1 (by simp [ids, h2])
        refine nodup_node.2 ⟨fun hc => ?_, n2, ih n3 hu hd', n4, fun i h1 h2 => ?_⟩
        · rcases mem_putAt path n3 hc with h | ⟨h, -⟩
          · exact n1 (mem_subAt path (hd j h (by simp [ids])))
          · exact n1 h
        · rcases mem_putAt path n3 h1 with h | ⟨h, -⟩
          · exact n5 i (mem_subAt path (hd i h (by simp [ids, h2]))) h2
          · exact n5 i h h2

theorem rep_putAt {m m' : Nat → Option (Cell α)} (path : List Bool) : ∀ {t u : Tree α}, Rep m t → (ids t).Nodup →
    ptr u = ptr (subAt t path) → Rep m' u → (∀ i ∈ ids t, i ∉ ids (subAt t path) → m' i = m i) → Rep m' (putAt t path u) := by
  induction path with
  | nil => intro t u _ _ _ h _; cases t <;> exact h
  | cons b path ih =>
    intro t u hr hn hp hu hm
    cases t with
    | nil => trivial
    | node j p v hh l r =>
      obtain ⟨n1, n2, n3, n4, n5⟩ := nodup_node.1 hn
      cases b with
      | true =>
        have hp' : ptr u = ptr (subAt r path) := hp
        have hm' : ∀ i ∈ ids (.node j p v hh l r), i ∉ ids (subAt r path) → m' i = m i := hm
        refine ⟨?_, hr.2.1.congr fun i hi => hm' i (by simp [ids, hi]) fun hc => n5 i hi (mem_subAt path hc),
          ih hr.2.2 n4 hp' hu fun i h1 h2 => hm' i (by simp [ids, h1]) h2⟩
        rw [hm' j (by simp [ids]) fun hc => n2 (mem_subAt path hc), hr.1, ptr_putAt path hp']
      | false =>
        have hp' : ptr u = ptr (subAt l path) := hp
        have hm' : ∀ i ∈ ids (.node j p v hh l r), i ∉ ids (subAt l path) → m' i = m i := hm
        refine ⟨?_, ih hr.2.1 n3 hp' hu fun i h1 h2 => hm' i (by simp [ids, h1]) h2,
          hr.2.2.congr fun i hi => hm' i (by simp [ids, hi]) fun hc => n5 i (mem_subAt path hc) hi⟩
        rw [hm' j (by simp [ids]) fun hc => n1 (mem_subAt path hc), hr.1, ptr_putAt path hp']

/-- The parents in a subtree, and after its replacement. -/
theorem parents_putAt (path : List Bool) : ∀ {t : Tree α} {q : Ptr}, ParentsExact q t →
    ∃ q', ParentsExact q' (subAt t path) ∧ (path = [] → q' = q) ∧ ∀ u, ParentsExact q' u → ParentsExact q (putAt t path u) := by
  induction path with
  | nil => intro t q h; exact ⟨q, by cases t <;> exact h, fun _ => rfl, fun u hu => by cases t <;> exact hu⟩
  | cons b path ih =>
    intro t q h
    cases t with
    | nil => exact ⟨q, trivial, fun _ => rfl, fun _ _ => trivial⟩
    | node j p v hh l r =>
      obtain ⟨h1, h2, h3⟩ := h
      cases b with
      | true =>
        obtain ⟨q', a, -, c⟩ := ih h3
        exact ⟨q', a, (fun e => by cases e), fun u hu => ⟨h1, h2, c u hu⟩⟩
      | false =>
        obtain ⟨q', a, -, c⟩ := ih h2
        exact ⟨q', a, (fun e => by cases e), fun u hu => ⟨h1, c u hu, h3⟩⟩

/-! ### Two separate paths -/

theorem subAt_putAt_sep (p : List Bool) : ∀ {q : List Bool} {t u : Tree α}, ¬ p <+: q → ¬ q <+: p →
    subAt (putAt t p u) q = subAt t q := by
  induction p with
  | nil => intro q t u h; exact absurd List.nil_prefix h
  | cons b p ih =>
    intro q t u h1 h2
    cases q with
    | nil => exact absurd List.nil_prefix h2
    | cons c q =>
      cases t with
      | nil => rfl
      | node j pp v hh l r =>
        by_cases hbc : b = c
        · subst hbc
          rw [List.cons_prefix_cons] at h1 h2
          cases b with
          | true => exact ih (fun h => h1 ⟨rfl, h⟩) (fun h => h2 ⟨rfl, h⟩)
          | false => exact ih (fun h => h1 ⟨rfl, h⟩) (fun h => h2 ⟨rfl, h⟩)
        · cases b <;> cases c <;> first | exact absurd rfl hbc | rfl

theorem subAt_disj (p : List Bool) : ∀ {q : List Bool} {t : Tree α} {i : Nat}, (ids t).Nodup → ¬ p <+: q → ¬ q <+: p →
    i ∈ ids (subAt t p) → i ∉ ids (subAt t q) := by
  induction p with
  | nil => intro q t i _ h; exact absurd List.nil_prefix h
  | cons b p ih =>
    intro q t i hn h1 h2 hi
    cases q with
    | nil => exact absurd List.nil_prefix h2
    | cons c q =>
      cases t with
      | nil => cases hi
      | node j pp v hh l r =>
        obtain ⟨n1, n2, n3, n4, n5⟩ := nodup_node.1 hn
        by_cases hbc : b = c
        · subst hbc
          replace h1 : ¬ p <+: q := fun h => h1 (List.cons_prefix_cons.2 ⟨rfl, h⟩)
          replace h2 : ¬ q <+: p := fun h => h2 (List.cons_prefix_cons.2 ⟨rfl, h⟩)
          cases b with
          | true => exact ih (t := r) n4 h1 h2 hi
          | false => exact ih (t := l) n3 h1 h2 hi
        · cases b with
          | true =>
            cases c with
            | true => exact absurd rfl hbc
            | false => exact fun hc => n5 i (mem_subAt q (t := l) hc) (mem_subAt p (t := r) hi)
          | false =>
            cases c with
            | false => exact absurd rfl hbc
            | true => exact fun hc => n5 i (mem_subAt p (t := l) hi) (mem_subAt q (t := r) hc)

/-! ### The invariant -/

theorem Inv.local {s s' : St α} {T : Nat → Tree α} (h : Inv s T) {k : Nat} {path : List Bool} {u : Tree α}
    (hp : ptr u = ptr (subAt (T k) path)) (hr : Rep s'.mem u) (hn : (ids u).Nodup) (hroots : s'.roots = s.roots)
    (hframe : ∀ j, j ∉ ids (subAt (T k) path) → j ∉ ids u → (∃ k, j ∈ ids (T k)) → s'.mem j = s.mem j)
    (hids : ∀ i ∈ ids u, i ∈ ids (subAt (T k) path) ∨ ∀ j, i ∉ ids (T j)) (hf : Fresh s') :
    Inv s' (upd T k (putAt (T k) path u)) := by
  have other : ∀ j, j ≠ k → ∀ i ∈ ids (T j), i ∉ ids (putAt (T k) path u) := by
    intro j hj i hi hc
    rcases mem_putAt path (h.nodup k) hc with h1 | ⟨h1, -⟩
    · rcases hids i h1 with h2 | h2
      · exact h.disj j k i hj hi (mem_subAt path h2)
      · exact h2 j hi
    · exact h.disj j k i hj hi h1
  have notu : ∀ i, (∃ k, i ∈ ids (T k)) → i ∉ ids (subAt (T k) path) → i ∉ ids u := by
    rintro i ⟨j, hj⟩ h1 h2
    rcases hids i h2 with h3 | h3
    · exact h1 h3
    · exact h3 j hj
  refine ⟨fun j => ?_, fun j => ?_, fun j => ?_, fun a b i hab hi => ?_, hf⟩
  · by_cases hj : j = k
    · subst hj
      rw [upd_self]
      exact rep_putAt path (h.rep j) (h.nodup j) hp hr fun i h1 h2 => hframe i h2 (notu i ⟨j, h1⟩ h2) ⟨j, h1⟩
    · rw [upd_ne _ hj]
      refine (h.rep j).congr fun i hi => ?_
      have h1 : i ∉ ids (subAt (T k) path) := fun hc => h.disj j k i hj hi (mem_subAt path hc)
      exact hframe i h1 (notu i ⟨j, hi⟩ h1) ⟨j, hi⟩
  · rw [hroots, h.root j]
    by_cases hj : j = k
    · subst hj; rw [upd_self, ptr_putAt path hp]
    · rw [upd_ne _ hj]
  · by_cases hj : j = k
    · subst hj
      rw [upd_self]
      refine nodup_putAt path (h.nodup j) hn fun i h1 h2 => ?_
      rcases hids i h1 with h3 | h3
      · exact h3
      · exact absurd h2 (h3 j)
    · rw [upd_ne _ hj]; exact h.nodup j
  · by_cases ha : a = k
    · subst ha
      rw [upd_self] at hi
      rw [upd_ne _ (Ne.symm hab)]
      exact fun hb => other b (Ne.symm hab) i hb hi
    · rw [upd_ne _ ha] at hi
      by_cases hb : b = k
      · subst hb; rw [upd_self]; exact other a ha i hi
      · rw [upd_ne _ hb]; exact h.disj a b i hab hi

/-- The subtree `t` was turned into `u`, with new nodes if necessary; nodes left over were deleted. -/
structure Loc0 (s s' : St α) (t u : Tree α) : Prop where
  ptr : ptr u = ptr t
  rep : Rep s'.mem u
  nodup : (ids u).Nodup
  roots : s'.roots = s.roots
  next : s.next ≤ s'.next
  frame : ∀ j, j ∉ ids t → j ∉ ids u → s'.mem j = s.mem j
  ids : ∀ i ∈ ids u, i ∈ ids t ∨ s.next ≤ i
  free : ∀ i ∈ Mem.ids t, i ∉ Mem.ids u → s'.mem i = none
  fresh : Fresh s'

/-- The same, and the parents are still right. -/
structure Loc (s s' : St α) (t u : Tree α) : Prop extends Loc0 s s' t u where
  par : ∀ q, ParentsExact q t → ParentsExact q u

theorem Loc.refl {s : St α} {t : Tree α} (hr : Rep s.mem t) (hn : (Mem.ids t).Nodup) (hf : Fresh s) : Loc s s t t :=
  ⟨⟨rfl, hr, hn, rfl, Nat.le_refl _, fun _ _ _ => rfl, fun _ h => .inl h, fun _ h h' => absurd h h', hf⟩, fun _ h => h⟩

theorem Loc0.trans {s s' s'' : St α} {t u w : Tree α} (hf : Fresh s) (h : Loc0 s s' t u) (h' : Loc0 s' s'' u w) :
    Loc0 s s'' t w where
  ptr := h'.ptr.trans h.ptr
  rep := h'.rep
  nodup := h'.nodup
  roots := h'.roots.trans h.roots
  next := Nat.le_trans h.next h'.next
  frame := fun j h1 h2 => by
    by_cases hj : j ∈ Mem.ids u
    · have h3 := h'.free j hj h2
      rcases h.ids j hj with h4 | h4
      · exact absurd h4 h1
      · rw [h3, hf j h4]
    · rw [h'.frame j hj h2, h.frame j h1 hj]
  ids := fun i hi => by
    rcases h'.ids i hi with h1 | h1
    · exact h.ids i h1
    · exact .inr (Nat.le_trans h.next h1)
  free := fun i h1 h2 => by
    by_cases hi : i ∈ Mem.ids u
    · exact h'.free i hi h2
    · rw [h'.frame i hi h2, h.free i h1 hi]
  fresh := h'.fresh

theorem Loc.trans {s s' s'' : St α} {t u w : Tree α} (hf : Fresh s) (h : Loc s s' t u) (h' : Loc s' s'' u w) : Loc s s'' t w :=
  ⟨h.toLoc0.trans hf h'.toLoc0, fun q hq => h'.par q (h.par q hq)⟩

theorem not_tree_of_next {s : St α} {T : Nat → Tree α} (h : Inv s T) {i : Nat} (hi : s.next ≤ i) (j : Nat) : i ∉ ids (T j) :=
  fun hc => by have := h.lt hc; omega

theorem Loc0.inv {s s' : St α} {T : Nat → Tree α} (h : Inv s T) {k : Nat} {path : List Bool} {t u : Tree α}
    (ht : subAt (T k) path = t) (hl : Loc0 s s' t u) : Inv s' (upd T k (putAt (T k) path u)) := by
  subst ht
  refine h.local hl.ptr hl.rep hl.nodup hl.roots (fun j h1 h2 _ => hl.frame j h1 h2) (fun i hi => ?_) hl.fresh
  rcases hl.ids i hi with h1 | h1
  · exact .inl h1
  · exact .inr (not_tree_of_next h h1)

theorem Loc0.noLeak {s s' : St α} {T : Nat → Tree α} (hn : NoLeak s T) {k : Nat} {path : List Bool} {t u : Tree α}
    (ht : subAt (T k) path = t) (hne : t ≠ .nil) (hl : Loc0 s s' t u) : NoLeak s' (upd T k (putAt (T k) path u)) := by
  subst ht
  intro i c hi
  by_cases h1 : i ∈ Mem.ids u
  · exact ⟨k, by rw [upd_self]; exact mem_putAt_new path hne h1⟩
  · have h2 : i ∉ Mem.ids (subAt (T k) path) := fun h2 => by rw [hl.free i h2 h1] at hi; cases hi
    rw [hl.frame i h2 h1] at hi
    obtain ⟨j, hj⟩ := hn i c hi
    by_cases hjk : j = k
    · subst hjk; exact ⟨j, by rw [upd_self]; exact mem_putAt_old path hj h2⟩
    · exact ⟨j, by rwa [upd_ne _ hjk]⟩

theorem Loc0.lost {s s' : St α} {T : Nat → Tree α} (h : Inv s T) {k : Nat} {path : List Bool} {t u : Tree α}
    (ht : subAt (T k) path = t) (hl : Loc0 s s' t u) (i : Nat) (hi : Lost s T i) : Lost s' (upd T k (putAt (T k) path u)) i := by
  subst ht
  obtain ⟨⟨c, hc⟩, hi⟩ := hi
  have hu : i ∉ Mem.ids u := fun h1 => by
    rcases hl.ids i h1 with h2 | h2
    · exact hi k (mem_subAt path h2)
    · rw [h.fresh i h2] at hc; cases hc
  refine ⟨⟨c, by rw [hl.frame i (fun h2 => hi k (mem_subAt path h2)) hu, hc]⟩, fun j => ?_⟩
  by_cases hj : j = k
  · subst hj
    rw [upd_self]
    intro h1
    rcases mem_putAt path (h.nodup j) h1 with h2 | ⟨h2, -⟩
    · exact hu h2
    · exact hi j h2
  · rw [upd_ne _ hj]; exact hi j

theorem Loc0.clean {s s' : St α} {T : Nat → Tree α} (h : Inv s T) {k : Nat} {path : List Bool} {t u : Tree α}
    (ht : subAt (T k) path = t) (hne : t ≠ .nil) (hl : Loc0 s s' t u) : Clean s T s' (upd T k (putAt (T k) path u)) :=
  ⟨fun hn => hl.noLeak hn ht hne, hl.lost h ht⟩

theorem Loc.parents {s s' : St α} {T : Nat → Tree α} (hp : ∀ k, ParentsExact none (T k)) {k : Nat} {path : List Bool}
    {t u : Tree α} (ht : subAt (T k) path = t) (hl : Loc s s' t u) (j : Nat) :
    ParentsExact none (upd T k (putAt (T k) path u) j) := by
  subst ht
  by_cases hj : j = k
  · subst hj
    rw [upd_self]
    obtain ⟨q, h1, -, h3⟩ := parents_putAt path (hp j)
    exact h3 u (hl.par q h1)
  · rw [upd_ne _ hj]; exact hp j

/-! ### The operations on a node -/

theorem addLeft_loc {s : St α} {i : Nat} {p : Ptr} {v : α} {h : Nat} {l r : Tree α} (hr : Rep s.mem (.node i p v h l r))
    (hn : (ids (.node i p v h l r)).Nodup) (hf : Fresh s) (x : α) :
    ∃ s' u, addLeft s i (.val x) = .ok (decide (ptr l = none), s') ∧ Loc s s' (.node i p v h l r) u ∧
      erase u = (match erase l with
        | .nil => .node v (.node x .nil .nil) (erase r)
        | l' => .node v l' (erase r)) := by
  cases l with
  | node li lp lv lh ll lr =>
    exact ⟨s, _, by simp [addLeft, cell_eq hr.1], Loc.refl hr hn hf, rfl⟩
  | nil =>
    obtain ⟨s', e, r', -, q, n, fr⟩ := addLeft_rep hr hn hf (ref := .val x) rfl
    obtain ⟨-, n2, -, n4, -⟩ := nodup_node.1 hn
    have nf := fresh_not_mem hf hr
    simp only [ids, List.nil_append, List.mem_cons, not_or] at nf
    refine ⟨s', .node i p v h (.node s.next (some i) x 1 .nil .nil) r, e, ⟨⟨rfl, r', ?_, q, by omega, fun j h1 h2 => ?_, fun j hj => ?_, fun j h1 h2 => ?_, fun j hj => ?_⟩, fun q hq => ?_⟩, rfl⟩
    · refine nodup_node.2 ⟨?_, n2, by simp [ids], n4, ?_⟩
      · simpa [ids] using Ne.symm nf.1
      · simpa [ids] using nf.2
    · simp only [ids, List.nil_append, List.cons_append, List.mem_cons, not_or] at h1 h2
      exact fr j h2.2.1 h1.1
    · simp only [ids, List.nil_append, List.cons_append, List.mem_cons] at hj ⊢
      rcases hj with hj | hj | hj
      · exact .inl (.inl hj)
      · exact .inr (by omega)
      · exact .inl (.inr hj)
    · exact absurd h1 (fun h1 => h2 (by simp only [ids, List.nil_append, List.cons_append, List.mem_cons] at h1 ⊢; tauto))
    · have : j ≠ i := by
        rintro rfl
        have := hr.1
        rw [hf j (by omega)] at this
        cases this
      rw [fr j (by omega) this, hf j (by omega)]
    · exact ⟨hq.1, ⟨rfl, trivial, trivial⟩, hq.2.2⟩

theorem addRight_loc {s : St α} {i : Nat} {p : Ptr} {v : α} {h : Nat} {l r : Tree α} (hr : Rep s.mem (.node i p v h l r))
    (hn : (ids (.node i p v h l r)).Nodup) (hf : Fresh s) (x : α) :
    ∃ s' u, addRight s i (.val x) = .ok (decide (ptr r = none), s') ∧ Loc s s' (.node i p v h l r) u ∧
      erase u = (match erase r with
        | .nil => .node v (erase l) (.node x .nil .nil)
        | r' => .node v (erase l) r') := by
  cases r with
  | node li lp lv lh ll lr =>
    exact ⟨s, _, by simp [addRight, cell_eq hr.1], Loc.refl hr hn hf, rfl⟩
  | nil =>
    obtain ⟨s', e, r', -, q, n, fr⟩ := addRight_rep hr hn hf (ref := .val x) rfl
    obtain ⟨n1, -, n3, -, -⟩ := nodup_node.1 hn
    have nf := fresh_not_mem hf hr
    simp only [ids, List.append_nil, List.mem_cons, not_or] at nf
    refine ⟨s', .node i p v h l (.node s.next (some i) x 1 .nil .nil), e, ⟨⟨rfl, r', ?_, q, by omega, fun j h1 h2 => ?_, fun j hj => ?_, fun j h1 h2 => ?_, fun j hj => ?_⟩, fun q hq => ?_⟩, rfl⟩
    · refine nodup_node.2 ⟨n1, ?_, n3, by simp [ids], ?_⟩
      · simpa [ids] using Ne.symm nf.1
      · intro j hj hj'
        simp only [ids, List.append_nil, List.mem_singleton] at hj'
        subst hj'
        exact nf.2 hj
    · simp only [ids, List.append_nil, List.mem_cons, List.mem_append, not_or, List.not_mem_nil, not_false_eq_true, and_true] at h1 h2
      exact fr j h2.2.2 h1.1
    · simp only [ids, List.append_nil, List.mem_cons, List.mem_append, List.not_mem_nil, or_false] at hj ⊢
      rcases hj with hj | hj | hj
      · exact .inl (.inl hj)
      · exact .inl (.inr hj)
      · exact .inr (by omega)
    · exact absurd h1 (fun h1 => h2 (by
        simp only [ids, List.append_nil, List.mem_cons, List.mem_append] at h1 ⊢; tauto))
    · have : j ≠ i := by
        rintro rfl
        have := hr.1
        rw [hf j (by omega)] at this
        cases this
      rw [fr j (by omega) this, hf j (by omega)]
    · exact ⟨hq.1, hq.2.1, ⟨rfl, trivial, trivial⟩⟩

theorem deleteLeft_loc {s : St α} {i : Nat} {p : Ptr} {v : α} {h : Nat} {l r : Tree α} {fuel : Nat} (hr : Rep s.mem (.node i p v h l r))
    (hn : (ids (.node i p v h l r)).Nodup) (hf : Fresh s) (hfu : (ids (.node i p v h l r)).length ≤ fuel) :
    ∃ s', deleteChild fuel s i 0 = .ok (decide (ptr l ≠ none), s') ∧ Loc s s' (.node i p v h l r) (.node i p v h .nil r) ∧
      s'.next = s.next := by
  obtain ⟨n1, n2, n3, n4, n5⟩ := nodup_node.1 hn
  cases hl : ptr l with
  | none =>
    have := ptr_none.1 hl
    subst this
    exact ⟨s, by cases hp : ptr r <;> simp [deleteChild, cell_eq hr.1, hp], Loc.refl hr hn hf, rfl⟩
  | some j =>
    obtain ⟨s1, e1, q1, x1, m1⟩ := deleteNode_rep l fuel s j hl hr.2.1 n3 (by
      simp only [ids, List.length_cons, List.length_append] at hfu; omega)
    have hi1 : s1.mem i = some ⟨p, v, h, ptr l, ptr r⟩ := by rw [m1, if_neg n1, hr.1]
    refine ⟨s1.set i ⟨p, v, h, none, ptr r⟩, ?_, ⟨⟨rfl, ⟨mem_set_self _ _ _, trivial, ?_⟩, ?_, q1, by simp [x1], fun j h1 h2 => ?_,
      fun j hj => ?_, fun j h1 h2 => ?_, fun j hj => ?_⟩, fun q hq => ⟨hq.1, trivial, hq.2.2⟩⟩, x1⟩
    · simp only [deleteChild, cell_eq hr.1, Res.bind_ok, hl, e1, change_eq hi1]
      rfl
    · exact rep_set n2 (hr.2.2.congr fun j hj => by rw [m1, if_neg fun hc => n5 j hc hj])
    · exact nodup_node.2 ⟨by simp [ids], n2, by simp [ids], n4, by simp [ids]⟩
    · simp only [ids, List.mem_cons, List.mem_append, not_or] at h1
      rw [mem_set_ne _ h1.1, m1, if_neg h1.2.1]
    · left
      simp only [ids, List.mem_cons, List.mem_append, List.not_mem_nil, false_or] at hj ⊢
      tauto
    · simp only [ids, List.mem_cons, List.mem_append, List.not_mem_nil, false_or, not_or] at h1 h2
      rw [mem_set_ne _ h2.1, m1, if_pos (by tauto)]
    · have hj : s1.next ≤ j := hj
      have hj' : s.mem j = none := hf j (by omega)
      have hji : j ≠ i := by rintro rfl; rw [hr.1] at hj'; cases hj'
      rw [mem_set_ne _ hji, m1]
      split
      · rfl
      · exact hj'

theorem deleteRight_loc {s : St α} {i : Nat} {p : Ptr} {v : α} {h : Nat} {l r : Tree α} {fuel : Nat} (hr : Rep s.mem (.node i p v h l r))
    (hn : (ids (.node i p v h l r)).Nodup) (hf : Fresh s) (hfu : (ids (.node i p v h l r)).length ≤ fuel) :
    ∃ s', deleteChild fuel s i 1 = .ok (decide (ptr r ≠ none), s') ∧ Loc s s' (.node i p v h l r) (.node i p v h l .nil) ∧
      s'.next = s.next := by
  obtain ⟨n1, n2, n3, n4, n5⟩ := nodup_node.1 hn
  cases hl : ptr r with
  | none =>
    have := ptr_none.1 hl
    subst this
    exact ⟨s, by cases hp : ptr l <;> simp [deleteChild, cell_eq hr.1, hp], Loc.refl hr hn hf, rfl⟩
  | some j =>
    obtain ⟨s1, e1, q1, x1, m1⟩ := deleteNode_rep r fuel s j hl hr.2.2 n4 (by
      simp only [ids, List.length_cons, List.length_append] at hfu; omega)
    have hi1 : s1.mem i = some ⟨p, v, h, ptr l, ptr r⟩ := by rw [m1, if_neg n2, hr.1]
    refine ⟨s1.set i ⟨p, v, h, ptr l, none⟩, ?_, ⟨⟨rfl, ⟨mem_set_self _ _ _, ?_, trivial⟩, ?_, q1, by simp [x1], fun j h1 h2 => ?_,
      fun j hj => ?_, fun j h1 h2 => ?_, fun j hj => ?_⟩, fun q hq => ⟨hq.1, hq.2.1, trivial⟩⟩, x1⟩
    · simp only [deleteChild, cell_eq hr.1, Res.bind_ok, hl, e1, change_eq hi1]
      rfl
    · exact rep_set n1 (hr.2.1.congr fun j hj => by rw [m1, if_neg fun hc => n5 j hj hc])
    · exact nodup_node.2 ⟨n1, by simp [ids], n3, by simp [ids], by simp [ids]⟩
    · simp only [ids, List.mem_cons, List.mem_append, not_or] at h1
      rw [mem_set_ne _ h1.1, m1, if_neg h1.2.2]
    · left
      simp only [ids, List.mem_cons, List.mem_append, List.not_mem_nil, or_false] at hj ⊢
      tauto
    · simp only [ids, List.mem_cons, List.mem_append, List.not_mem_nil, or_false, not_or] at h1 h2
      rw [mem_set_ne _ h2.1, m1, if_pos (by tauto)]
    · have hj : s1.next ≤ j := hj
      have hj' : s.mem j = none := hf j (by omega)
      have hji : j ≠ i := by rintro rfl; rw [hr.1] at hj'; cases hj'
      rw [mem_set_ne _ hji, m1]
      split
      · rfl
      · exact hj'

theorem clear_loc {s : St α} {i : Nat} {p : Ptr} {v : α} {h : Nat} {l r : Tree α} {fuel : Nat} (hr : Rep s.mem (.node i p v h l r))
    (hn : (ids (.node i p v h l r)).Nodup) (hf : Fresh s) (hfu : (ids (.node i p v h l r)).length ≤ fuel) :
    ∃ s', clearNode fuel s i = .ok s' ∧ Loc s s' (.node i p v h l r) (.node i p v h .nil .nil) ∧ s'.next = s.next := by
  obtain ⟨s1, e1, l1, x1⟩ := deleteLeft_loc hr hn hf hfu
  obtain ⟨s2, e2, l2, x2⟩ := deleteRight_loc (fuel := fuel) l1.rep l1.nodup l1.fresh (by
    simp only [ids, List.length_cons, List.length_append, List.length_nil] at hfu ⊢; omega)
  exact ⟨s2, by simp only [clearNode, e1, e2, Res.bind_ok], l1.trans hf l2, by omega⟩

/-- Values are written, links stay. -/
theorem setVal_loc {s : St α} {i : Nat} {p : Ptr} {v : α} {h : Nat} {l r : Tree α} (hr : Rep s.mem (.node i p v h l r))
    (hn : (ids (.node i p v h l r)).Nodup) (hf : Fresh s) (x : α) :
    Loc s (s.set i ⟨p, x, h, ptr l, ptr r⟩) (.node i p v h l r) (.node i p x h l r) := by
  obtain ⟨n1, n2, n3, n4, n5⟩ := nodup_node.1 hn
  refine ⟨⟨rfl, ⟨mem_set_self _ _ _, rep_set n1 hr.2.1, rep_set n2 hr.2.2⟩, hn, rfl, Nat.le_refl _, fun j h1 _ => ?_,
    fun j hj => .inl hj, fun j h1 h2 => absurd h1 h2, fun j hj => ?_⟩, fun q hq => hq⟩
  · simp only [ids, List.mem_cons, not_or] at h1
    exact mem_set_ne _ h1.1 _
  · have hj' : s.mem j = none := hf j hj
    have hji : j ≠ i := by rintro rfl; rw [hr.1] at hj'; cases hj'
    rw [mem_set_ne _ hji, hj']

theorem swap_loc {s : St α} {i : Nat} {p : Ptr} {v : α} {h : Nat} {l r : Tree α} (hr : Rep s.mem (.node i p v h l r))
    (hn : (ids (.node i p v h l r)).Nodup) (hf : Fresh s) (dir : Nat) :
    ∃ s' u, swapChild s i dir = .ok s' ∧ Loc s s' (.node i p v h l r) u ∧
      erase u = (match dir, erase l, erase r with
        | 0, .node w a b, r => .node w (.node v a b) r
        | 1, l, .node w a b => .node w l (.node v a b)
        | _, l, r => .node v l r) := by
  obtain ⟨n1, n2, n3, n4, n5⟩ := nodup_node.1 hn
  have same : ∃ s' u, (.ok s : Res (St α)) = .ok s' ∧ Loc s s' (.node i p v h l r) u ∧ erase u = .node v (erase l) (erase r) :=
    ⟨s, _, rfl, Loc.refl hr hn hf, rfl⟩
  have fr : ∀ (a : Nat) (c c' : Cell α) (d : Cell α), s.mem a = some c → Fresh ((s.set a c').set i d) := by
    intro a c c' d ha j hj
    have hj' : s.mem j = none := hf j hj
    have hji : j ≠ i := by rintro rfl; rw [hr.1] at hj'; cases hj'
    have hja : j ≠ a := by rintro rfl; rw [ha] at hj'; cases hj'
    rw [mem_set_ne _ hji, mem_set_ne _ hja, hj']
  match dir with
  | 0 =>
    cases l with
    | nil => simpa [swapChild, cell_eq hr.1, erase] using same
    | node li lp lv lh ll lr =>
      obtain ⟨hi, ⟨hl, hll, hlr⟩, hrr⟩ := hr
      obtain ⟨m1, m2, m3, m4, m5⟩ := nodup_node.1 n3
      simp only [ids, List.mem_cons, List.mem_append, not_or] at n1 n5
      have hne : li ≠ i := Ne.symm n1.1
      have hi1 : ∀ c, (s.set li c).mem i = some ⟨p, v, h, some li, ptr r⟩ := fun c => by rw [mem_set_ne _ n1.1, hi]; rfl
      refine ⟨(s.set li ⟨lp, v, lh, ptr ll, ptr lr⟩).set i ⟨p, lv, h, some li, ptr r⟩, .node i p lv h (.node li lp v lh ll lr) r, ?_,
        ⟨⟨rfl, ⟨mem_set_self _ _ _, ⟨?_, rep_set n1.2.1 (rep_set m1 hll), rep_set n1.2.2 (rep_set m2 hlr)⟩,
          rep_set n2 (rep_set (n5 li (.inl rfl)) hrr)⟩, hn, rfl, Nat.le_refl _, fun j h1 _ => ?_, fun j hj => .inl hj,
          fun j h1 h2 => absurd h1 h2, fr li _ _ _ hl⟩, fun q hq => hq⟩, rfl⟩
      · simp only [swapChild, cell_eq hi, Res.bind_ok, ptr_node, swapValues, cell_eq hl, change_eq hl, change_eq (hi1 _)]
      · rw [mem_set_ne _ hne, mem_set_self]
      · simp only [ids, List.cons_append, List.mem_cons, not_or] at h1
        rw [mem_set_ne _ h1.1, mem_set_ne _ h1.2.1]
  | 1 =>
    cases r with
    | nil =>
      have : swapChild s i 1 = .ok s := by cases hp : ptr l <;> simp [swapChild, cell_eq hr.1, hp]
      rw [this]
      obtain ⟨s', u, e, g, k⟩ := same
      refine ⟨s', u, e, g, k.trans ?_⟩
      cases erase l <;> rfl
    | node ri rp rv rh rl rr =>
      obtain ⟨hi, hll, ⟨hr, hrl, hrr⟩⟩ := hr
      obtain ⟨m1, m2, m3, m4, m5⟩ := nodup_node.1 n4
      simp only [ids, List.mem_cons, List.mem_append, not_or] at n2 n5
      have hne : ri ≠ i := Ne.symm n2.1
      have hrl' : ri ∉ ids l := fun hc => (n5 ri hc).1 rfl
      have hi1 : ∀ c, (s.set ri c).mem i = some ⟨p, v, h, ptr l, some ri⟩ := fun c => by rw [mem_set_ne _ n2.1, hi]; rfl
      refine ⟨(s.set ri ⟨rp, v, rh, ptr rl, ptr rr⟩).set i ⟨p, rv, h, ptr l, some ri⟩, .node i p rv h l (.node ri rp v rh rl rr), ?_,
        ⟨⟨rfl, ⟨mem_set_self _ _ _, rep_set n1 (rep_set hrl' hll), ⟨?_, rep_set n2.2.1 (rep_set m1 hrl), rep_set n2.2.2 (rep_set m2 hrr)⟩⟩,
          hn, rfl, Nat.le_refl _, fun j h1 _ => ?_, fun j hj => .inl hj,
          fun j h1 h2 => absurd h1 h2, fr ri _ _ _ hr⟩, fun q hq => hq⟩, ?_⟩
      · have : swapChild s i 1 = swapValues s i ri := by
          cases hp : ptr l <;> simp [swapChild, cell_eq hi, hp]
        rw [this]
        simp only [Res.bind_ok, swapValues, cell_eq hi, cell_eq hr, change_eq hr, change_eq (hi1 _)]
      · rw [mem_set_ne _ hne, mem_set_self]
      · simp only [ids, List.mem_cons, List.mem_append, not_or] at h1
        rw [mem_set_ne _ h1.1, mem_set_ne _ h1.2.2.1]
      · cases hl : erase l <;> simp [erase, hl]
  | dir + 2 =>
    have : swapChild s i (dir + 2) = .ok s := by
      simp only [swapChild, cell_eq hr.1, Res.bind_ok]
    rw [this]
    exact same

/-- Copy assignment of a node from one outside. -/
theorem assign_loc (dflt : α) {s : St α} {i : Nat} {p : Ptr} {v : α} {h : Nat} {l r : Tree α} {si : Nat} {sp : Ptr} {sv : α} {sh : Nat}
    {sl sr : Tree α} {fuel : Nat} (hr : Rep s.mem (.node i p v h l r)) (hn : (ids (.node i p v h l r)).Nodup) (hf : Fresh s)
    (hfu : (ids (.node i p v h l r)).length < fuel) (hrs : Rep s.mem (.node si sp sv sh sl sr))
    (hdis : ∀ j ∈ ids (.node si sp sv sh sl sr), j ∉ ids (.node i p v h l r)) (hfs : sz (.node si sp sv sh sl sr) ≤ fuel) :
    ∃ s' u, copyNode dflt fuel s i si = .ok s' ∧ Loc s s' (.node i p v h l r) u ∧ erase u = erase (.node si sp sv sh sl sr) := by
  obtain ⟨fuel, rfl⟩ : ∃ f, fuel = f + 1 := ⟨fuel - 1, by omega⟩
  obtain ⟨s1, e1, l1, x1⟩ := clear_loc (fuel := fuel) hr hn hf (by omega)
  have hrs1 : Rep s1.mem (.node si sp sv sh sl sr) := hrs.congr fun j hj => l1.frame j (hdis j hj) (by
    have := hdis j hj
    simp only [ids, List.mem_cons, not_or] at this
    simpa [ids] using this.1)
  have hi1 : s1.mem i = some ⟨p, v, h, none, none⟩ := l1.rep.1
  have hid : i ∉ ids (.node si sp sv sh sl sr) := fun hc => hdis i hc (by simp [ids])
  obtain ⟨s2, e2, r2, q2, n2, f2, g2⟩ := copyNode_rep dflt _ (fuel + 1) s1 i si sp sv sh sl sr p v h rfl hi1 hid hrs1 l1.fresh hfs
  have hin : i < s1.next := by
    by_contra hc
    rw [l1.fresh i (by omega)] at hi1
    cases hi1
  have hids : ∀ j, j ∈ ids (.node i p sv h (sl.copy (some i) s1.next).1 (sr.copy (some i) (s1.next + sz sl)).1) ↔
      j = i ∨ (s1.next ≤ j ∧ j < s2.next) := by
    intro j
    simp only [ids, copy_ids, List.mem_cons, List.mem_append, List.mem_range'_1]
    omega
  have l2 : Loc s1 s2 (.node i p v h .nil .nil) (.node i p sv h (sl.copy (some i) s1.next).1 (sr.copy (some i) (s1.next + sz sl)).1) := by
    refine ⟨⟨rfl, r2, ?_, q2, by omega, fun j h1 h2 => ?_, fun j hj => ?_, fun j h1 h2 => ?_, g2⟩, fun q hq => ?_⟩
    · refine nodup_node.2 ⟨?_, ?_, ?_, ?_, ?_⟩
      · rw [copy_ids]; simp; omega
      · rw [copy_ids]; simp; omega
      · rw [copy_ids]; exact List.nodup_range'
      · rw [copy_ids]; exact List.nodup_range'
      · intro j hj hj'
        rw [copy_ids] at hj hj'
        simp only [List.mem_range'_1] at hj hj'
        omega
    · rw [hids, not_or] at h2
      by_cases hlt : j < s1.next
      · exact f2 j hlt h2.1
      · rw [g2 j (by omega), l1.fresh j (by omega)]
    · rw [hids] at hj
      simp only [ids, List.append_nil, List.mem_singleton]
      omega
    · rw [hids, not_or] at h2
      simp only [ids, List.append_nil, List.mem_singleton] at h1
      exact absurd h1 h2.1
    · have cp : ∀ (t : Tree α) par next, ParentsExact par (t.copy par next).1 := by
        intro t
        induction t with
        | nil => intro _ _; trivial
        | node a b c d e f ihe ihf => intro par next; exact ⟨rfl, ihe _ _, ihf _ _⟩
      exact ⟨hq.1, cp _ _ _, cp _ _ _⟩
  refine ⟨s2, _, ?_, l1.trans hf l2, by simp only [erase, erase_copy]⟩
  rw [← e2]
  unfold copyNode
  rw [e1]
  simp only [Res.bind_ok, clearNode_leaf fuel hi1]

/-- Setting the parent of a child, if there is one. -/
theorem setPar_rep {s : St α} {t : Tree α} (q : Ptr) (hr : Rep s.mem t) (hn : (ids t).Nodup) :
    ∃ s', ((match ptr t with
      | some l => change s l fun c => { c with par := q }
      | none => .ok s) : Res (St α)) = .ok s' ∧ Rep s'.mem (t.setParent q) ∧ s'.roots = s.roots ∧ s'.next = s.next ∧
      ∀ j, j ∉ ids t → s'.mem j = s.mem j := by
  cases t with
  | nil => exact ⟨s, rfl, trivial, rfl, rfl, fun _ _ => rfl⟩
  | node i p v h l r =>
    obtain ⟨n1, n2, n3, n4, n5⟩ := nodup_node.1 hn
    refine ⟨s.set i ⟨q, v, h, ptr l, ptr r⟩, by simp only [ptr_node, change_eq hr.1],
      ⟨mem_set_self _ _ _, rep_set n1 hr.2.1, rep_set n2 hr.2.2⟩, rfl, rfl, fun j hj => ?_⟩
    simp only [ids, List.mem_cons, not_or] at hj
    exact mem_set_ne _ hj.1 _

/-- The move assignment after its `clear()`. -/
theorem move_rep {s : St α} {i : Nat} {p : Ptr} {v : α} {h : Nat} {si : Nat} {sp : Ptr} {sv : α} {sh : Nat}
    {sl sr : Tree α} {fuel : Nat} (hi : s.mem i = some ⟨p, v, h, none, none⟩) (hrs : Rep s.mem (.node si sp sv sh sl sr))
    (hn : (ids (.node si sp sv sh sl sr)).Nodup) (hdis : i ∉ ids (.node si sp sv sh sl sr)) :
    ∃ s', moveNode fuel s i si = .ok s' ∧ s'.mem si = some ⟨none, sv, sh, none, none⟩ ∧
      Rep s'.mem (.node i p sv h (sl.setParent (some i)) (sr.setParent (some i))) ∧ s'.roots = s.roots ∧ s'.next = s.next ∧
      ∀ j, j ≠ i → j ∉ ids (.node si sp sv sh sl sr) → s'.mem j = s.mem j := by
  obtain ⟨n1, n2, n3, n4, n5⟩ := nodup_node.1 hn
  simp only [ids, List.mem_cons, List.mem_append, not_or] at hdis
  obtain ⟨hne, hil, hir⟩ := hdis
  obtain ⟨hs, hl, hrr⟩ := hrs
  have hs1 : ∀ c, (s.set i c).mem si = some ⟨sp, sv, sh, ptr sl, ptr sr⟩ := fun c => by rw [mem_set_ne _ (Ne.symm hne), hs]
  have hi2 : ∀ c d, ((s.set i c).set si d).mem i = some c := fun c d => by rw [mem_set_ne _ hne, mem_set_self]
  have hl2 : ∀ c d, Rep ((s.set i c).set si d).mem sl := fun c d => rep_set n1 (rep_set hil hl)
  have hr2 : ∀ c d, Rep ((s.set i c).set si d).mem sr := fun c d => rep_set n2 (rep_set hir hrr)
  obtain ⟨s5, e5, r5, q5, x5, f5⟩ := setPar_rep (some i) (hl2 ⟨p, v, h, ptr sl, ptr sr⟩ ⟨none, sv, sh, none, none⟩) n3
  have r5' : Rep s5.mem sr := (hr2 ⟨p, v, h, ptr sl, ptr sr⟩ ⟨none, sv, sh, none, none⟩).congr fun j hj => f5 j fun hc => n5 j hc hj
  obtain ⟨s6, e6, r6, q6, x6, f6⟩ := setPar_rep (some i) r5' n4
  have hi5 : s5.mem i = some ⟨p, v, h, ptr sl, ptr sr⟩ := by rw [f5 i hil, hi2]
  have hi6 : s6.mem i = some ⟨p, v, h, ptr sl, ptr sr⟩ := by rw [f6 i hir, hi5]
  have hs6 : s6.mem si = some ⟨none, sv, sh, none, none⟩ := by rw [f6 si n2, f5 si n1, mem_set_self]
  refine ⟨s6.set i ⟨p, sv, h, ptr sl, ptr sr⟩, ?_, ?_, ⟨?_, ?_, ?_⟩, q6.trans q5, x6.trans x5, fun j h1 h2 => ?_⟩
  · simp only [moveNode, clearNode_leaf fuel hi, Res.bind_ok, cell_eq hs, change_eq hi, cell_eq (hs1 _), change_eq (mem_set_self _ _ _),
      set_set, change_eq (hs1 _), cell_eq (hi2 _ _)]
    refine (congrArg (· >>= _) e5).trans ?_
    simp only [Res.bind_ok, cell_eq hi5]
    refine (congrArg (· >>= _) e6).trans ?_
    simp only [Res.bind_ok, cell_eq hs6, change_eq hi6]
  · rw [mem_set_ne _ (Ne.symm hne), hs6]
  · rw [mem_set_self, ptr_setPar, ptr_setPar]
  · refine rep_set (by rw [ids_setPar]; exact hil) (r5.congr fun j hj => f6 j ?_)
    rw [ids_setPar] at hj
    exact n5 j hj
  · exact rep_set (by rw [ids_setPar]; exact hir) r6
  · simp only [ids, List.mem_cons, List.mem_append, not_or] at h2
    rw [mem_set_ne _ h1, f6 j h2.2.2, f5 j h2.2.1, mem_set_ne _ h2.1, mem_set_ne _ h1]

end Verif.Mem
