import Verif.Mem.RefineRemove
import Mathlib.Data.List.Range
import Mathlib.Tactic.ByContra

/-! Calls and assignments on several tree objects: the invariant of the memory. -/

namespace Verif.Mem
open Avl (Tree)
set_option linter.unusedSectionVars false
variable {α : Type}

/-- The trees `T` are in memory, separately. -/
structure Inv (s : St α) (T : Nat → Tree α) : Prop where
  rep : ∀ k, Rep s.mem (T k)
  root : ∀ k, s.roots k = ptr (T k)
  nodup : ∀ k, (ids (T k)).Nodup
  disj : ∀ k j i, k ≠ j → i ∈ ids (T k) → i ∉ ids (T j)
  fresh : Fresh s

/-- Every node in memory belongs to one of the trees. -/
def NoLeak (s : St α) (T : Nat → Tree α) : Prop := ∀ i c, s.mem i = some c → ∃ k, i ∈ ids (T k)

def upd (T : Nat → Tree α) (k : Nat) (t : Tree α) : Nat → Tree α := fun j => if j = k then t else T j

@[simp] theorem upd_self (T : Nat → Tree α) (k : Nat) (t : Tree α) : upd T k t k = t := by simp [upd]
theorem upd_ne (T : Nat → Tree α) {k j : Nat} (h : j ≠ k) (t : Tree α) : upd T k t j = T j := by simp [upd, h]

theorem Inv.lt {s : St α} {T : Nat → Tree α} (h : Inv s T) {k i : Nat} (hi : i ∈ ids (T k)) : i < s.next := by
  by_contra hc
  obtain ⟨c, hc'⟩ := (h.rep k).some hi
  rw [h.fresh i (by omega)] at hc'
  cases hc'

/-- Tree `k` is replaced by `t`, made of its old nodes and new ones. -/
theorem Inv.update {s s' : St α} {T : Nat → Tree α} (h : Inv s T) (k : Nat) (t : Tree α) (hr : Rep s'.mem t) (hn : (ids t).Nodup)
    (hroots : s'.roots = (s.setRoot k (ptr t)).roots) (hframe : ∀ j, j ∉ ids (T k) → j ∉ ids t → s'.mem j = s.mem j)
    (hids : ∀ i ∈ ids t, i ∈ ids (T k) ∨ s.next ≤ i ∧ i < s'.next) (hnext : s.next ≤ s'.next) :
    Inv s' (upd T k t) := by
  have other : ∀ j, j ≠ k → ∀ i ∈ ids (T j), i ∉ ids (T k) ∧ i ∉ ids t := by
    intro j hj i hi
    refine ⟨h.disj j k i hj hi, fun hit => ?_⟩
    rcases hids i hit with h1 | ⟨h1, -⟩
    · exact h.disj j k i hj hi h1
    · have := h.lt hi; omega
  refine ⟨fun j => ?_, fun j => ?_, fun j => ?_, fun a b i hab hi => ?_, fun j hj => ?_⟩
  · by_cases hj : j = k
    · subst hj; simpa using hr
    · rw [upd_ne _ hj]
      exact (h.rep j).congr fun i hi => hframe i (other j hj i hi).1 (other j hj i hi).2
  · rw [hroots]
    by_cases hj : j = k
    · subst hj; simp [St.setRoot]
    · rw [upd_ne _ hj]; simp [St.setRoot, hj, h.root j]
  · by_cases hj : j = k
    · subst hj; simpa using hn
    · rw [upd_ne _ hj]; exact h.nodup j
  · by_cases ha : a = k
    · subst ha
      rw [upd_self] at hi
      rw [upd_ne _ (Ne.symm hab)]
      exact fun hb => (other b (Ne.symm hab) i hb).2 hi
    · rw [upd_ne _ ha] at hi
      by_cases hb : b = k
      · subst hb; rw [upd_self]; exact (other a ha i hi).2
      · rw [upd_ne _ hb]; exact h.disj a b i hab hi
  · rw [hframe j, h.fresh j (by omega)]
    · exact fun hi => by have := h.lt hi; omega
    · intro hi
      rcases hids j hi with h1 | h1
      · have := h.lt h1; omega
      · omega

theorem NoLeak.update {s s' : St α} {T : Nat → Tree α} (h : NoLeak s T) (k : Nat) (t : Tree α)
    (hframe : ∀ j, j ∉ ids (T k) → j ∉ ids t → s'.mem j = s.mem j)
    (hfree : ∀ j ∈ ids (T k), j ∉ ids t → s'.mem j = none) : NoLeak s' (upd T k t) := by
  intro i c hi
  by_cases h1 : i ∈ ids t
  · exact ⟨k, by simpa using h1⟩
  · have h2 : i ∉ ids (T k) := fun h2 => by rw [hfree i h2 h1] at hi; cases hi
    rw [hframe i h2 h1] at hi
    obtain ⟨j, hj⟩ := h i c hi
    have hjk : j ≠ k := by rintro rfl; exact h2 hj
    exact ⟨j, by rwa [upd_ne _ hjk]⟩

/-- Node `i` is allocated, but belongs to no tree. -/
def Lost (s : St α) (T : Nat → Tree α) (i : Nat) : Prop := (∃ c, s.mem i = some c) ∧ ∀ k, i ∉ ids (T k)

/-- No node gets lost, and what was lost before still is. -/
def Clean (s : St α) (T : Nat → Tree α) (s' : St α) (T' : Nat → Tree α) : Prop :=
  (NoLeak s T → NoLeak s' T') ∧ ∀ i, Lost s T i → Lost s' T' i

theorem Clean.refl (s : St α) (T : Nat → Tree α) : Clean s T s T := ⟨id, fun _ => id⟩

theorem Clean.trans {s s1 s2 : St α} {T T1 T2 : Nat → Tree α} (h1 : Clean s T s1 T1) (h2 : Clean s1 T1 s2 T2) : Clean s T s2 T2 :=
  ⟨fun h => h2.1 (h1.1 h), fun i h => h2.2 i (h1.2 i h)⟩

theorem Lost.update {s s' : St α} {T : Nat → Tree α} (h : Inv s T) (k : Nat) (t : Tree α)
    (hframe : ∀ j, j ∉ ids (T k) → j ∉ ids t → s'.mem j = s.mem j)
    (hids : ∀ i ∈ ids t, i ∈ ids (T k) ∨ s.next ≤ i) (i : Nat) (hi : Lost s T i) : Lost s' (upd T k t) i := by
  obtain ⟨⟨c, hc⟩, hl⟩ := hi
  have ht : i ∉ ids t := fun hit => by
    rcases hids i hit with h1 | h1
    · exact hl k h1
    · rw [h.fresh i h1] at hc; cases hc
  refine ⟨⟨c, by rw [hframe i (hl k) ht, hc]⟩, fun j => ?_⟩
  by_cases hj : j = k
  · subst hj; rwa [upd_self]
  · rw [upd_ne _ hj]; exact hl j

theorem Clean.update {s s' : St α} {T : Nat → Tree α} (h : Inv s T) (k : Nat) (t : Tree α)
    (hframe : ∀ j, j ∉ ids (T k) → j ∉ ids t → s'.mem j = s.mem j)
    (hids : ∀ i ∈ ids t, i ∈ ids (T k) ∨ s.next ≤ i)
    (hfree : ∀ j ∈ ids (T k), j ∉ ids t → s'.mem j = none) : Clean s T s' (upd T k t) :=
  ⟨fun hl => hl.update k t hframe hfree, Lost.update h k t hframe hids⟩

theorem Inv.length {s : St α} {T : Nat → Tree α} (h : Inv s T) (k : Nat) : (ids (T k)).length ≤ s.next := by
  have : (ids (T k)).Subperm (List.range s.next) := List.subperm_of_subset (h.nodup k) fun i hi => List.mem_range.2 (h.lt hi)
  simpa using this.length_le

theorem setSlot_root (s : St α) (k : Nat) (p : Ptr) : setSlot s (.root k) p = s.setRoot k p := rfl

/-! ### Deleting a tree -/

theorem deleteRoot_inv {s : St α} {T : Nat → Tree α} (h : Inv s T) (k : Nat) :
    ∃ s', deleteRoot s k = .ok s' ∧ Inv s' (upd T k .nil) ∧ s'.next = s.next ∧
      (∀ j, s'.mem j = if j ∈ ids (T k) then none else s.mem j) ∧ Clean s T s' (upd T k .nil) := by
  have hroot := h.root k
  cases hp : ptr (T k) with
  | none =>
    have ht := ptr_none.1 hp
    have e : upd T k .nil = T := by
      funext j
      by_cases hj : j = k
      · subst hj; rw [upd_self, ht]
      · rw [upd_ne _ hj]
    refine ⟨s, by simp [deleteRoot, hroot, hp], by rwa [e], rfl, fun j => by simp [ht, ids], by rw [e]; exact Clean.refl s T⟩
  | some r =>
    obtain ⟨s1, e1, a1, b1, c1⟩ := deleteNode_rep (T k) s.fuel s r hp (h.rep k) (h.nodup k)
      (by have := h.length k; unfold St.fuel; omega)
    refine ⟨s1.setRoot k none, by simp [deleteRoot, hroot, hp, e1], ?_, b1, c1, ?_⟩
    · refine h.update k .nil trivial (by simp [ids]) ?_ (fun j h1 _ => by simp [c1, h1]) (by simp [ids]) (by simp [b1])
      simp [St.setRoot, a1]
    · exact Clean.update h k .nil (fun j h1 _ => by simp [c1, h1]) (by simp [ids]) (fun j h1 _ => by simp [c1, h1])

/-! ### Copying -/

/-- Number of nodes. -/
def sz : Tree α → Nat
  | .nil => 0
  | .node _ _ _ _ l r => sz l + sz r + 1

theorem ids_length (t : Tree α) : (ids t).length = sz t := by
  induction t with
  | nil => rfl
  | node i p v h l r ihl ihr => simp [ids, sz, ihl, ihr]

theorem copy_next (t : Tree α) : ∀ (par : Ptr) (n : Nat), (t.copy par n).2 = n + sz t := by
  induction t with
  | nil => intro par n; rfl
  | node i p v h l r ihl ihr =>
    intro par n
    simp only [Tree.copy, sz, ihl, ihr]
    omega

theorem copy_ids (t : Tree α) : ∀ (par : Ptr) (n : Nat), ids (t.copy par n).1 = List.range' n (sz t) := by
  induction t with
  | nil => intro par n; rfl
  | node i p v h l r ihl ihr =>
    intro par n
    simp only [Tree.copy, ids, sz, ihl, ihr, copy_next]
    rw [List.range'_succ, List.range'_append_1]

theorem clearNode_leaf (fuel : Nat) {s : St α} {i : Nat} {p : Ptr} {v : α} {h : Nat} (hi : s.mem i = some ⟨p, v, h, none, none⟩) :
    clearNode fuel s i = .ok s := by
  simp [clearNode, deleteChild, cell_eq hi]

theorem mem_alloc_ne (s : St α) (p : Ptr) (v : α) {j : Nat} (h : j ≠ s.next) : (alloc s p v).2.mem j = s.mem j := by
  simp [alloc, St.set, h]

theorem mem_alloc_self (s : St α) (p : Ptr) (v : α) : (alloc s p v).2.mem s.next = some ⟨p, v, 1, none, none⟩ := by
  simp [alloc, St.set]

theorem copy_node_eq (par : Ptr) (n i : Nat) (p : Ptr) (v : α) (h : Nat) (l r : Tree α) :
    ((Tree.node i p v h l r).copy par n).1 =
      .node n par v 1 (l.copy (some n) (n + 1)).1 (r.copy (some n) (n + 1 + sz l)).1 := by
  simp [Tree.copy, copy_next]

theorem copyNode_rep (dflt : α) (t : Tree α) : ∀ (fuel : Nat) (s : St α) (dst si : Nat) (sp : Ptr) (sv : α) (sh : Nat) (l r : Tree α)
    (p : Ptr) (v0 : α) (h0 : Nat), t = .node si sp sv sh l r → s.mem dst = some ⟨p, v0, h0, none, none⟩ → dst ∉ ids t →
    Rep s.mem t → Fresh s → sz t ≤ fuel →
    ∃ s', copyNode dflt fuel s dst si = .ok s' ∧
      Rep s'.mem (.node dst p sv h0 (l.copy (some dst) s.next).1 (r.copy (some dst) (s.next + sz l)).1) ∧ s'.roots = s.roots ∧
      s'.next = s.next + sz l + sz r ∧ (∀ j, j < s.next → j ≠ dst → s'.mem j = s.mem j) ∧ Fresh s' := by
  induction t with
  | nil => intro _ _ _ _ _ _ _ _ _ _ _ _ h; cases h
  | node si sp sv sh l r ihl ihr =>
    intro fuel s dst si' sp' sv' sh' l' r' p v0 h0 ht hd hdt hr hf hfu
    cases ht
    simp only [sz] at hfu
    obtain ⟨fuel, rfl⟩ : ∃ f, fuel = f + 1 := ⟨fuel - 1, by omega⟩
    simp only [ids, List.mem_cons, List.mem_append, not_or] at hdt
    obtain ⟨hds, hdl, hdr⟩ := hdt
    have lt : ∀ {i c}, s.mem i = some c → i < s.next := fun {i c} h => by
      by_contra hc
      rw [hf i (by omega)] at h
      cases h
    have hdn := lt hd
    have idlt : ∀ {t' : Tree α}, Rep s.mem t' → ∀ i ∈ ids t', i < s.next := fun h i hi => by
      obtain ⟨c, hc⟩ := h.some hi
      exact lt hc
    -- the left subtree
    have left : ∃ s1, ((match ptr l with
        | none => .ok s
        | some _ => do
          let (j, s) := alloc s none dflt
          let s ← change s dst fun d => { d with left := some j }
          let c ← cell s si
          match c.left with
          | none => .exc .invalidNode
          | some l => do
            let s ← copyNode dflt fuel s j l
            let d ← cell s dst
            match d.left with
            | none => .ub
            | some j => change s j fun k => { k with par := some dst }) : Res (St α)) = .ok s1 ∧
        Rep s1.mem (l.copy (some dst) s.next).1 ∧ s1.mem dst = some ⟨p, v0, h0, ptr (l.copy (some dst) s.next).1, none⟩ ∧
        s1.roots = s.roots ∧ s1.next = s.next + sz l ∧ (∀ j, j < s.next → j ≠ dst → s1.mem j = s.mem j) ∧ Fresh s1 := by
      cases l with
      | nil => exact ⟨s, rfl, trivial, hd, rfl, rfl, fun _ _ _ => rfl, hf⟩
      | node li lp lv lh ll lr =>
        have hd1 : (alloc s none dflt).2.mem dst = some ⟨p, v0, h0, none, none⟩ := by rw [mem_alloc_ne _ _ _ (by omega), hd]
        have hs1 : ((alloc s none dflt).2.set dst ⟨p, v0, h0, some s.next, none⟩).mem si = some ⟨sp, sv, sh, some li, ptr r⟩ := by
          rw [mem_set_ne _ (Ne.symm hds), mem_alloc_ne _ _ _ (by have := lt hr.1; omega), hr.1]; rfl
        have hj1 : ((alloc s none dflt).2.set dst ⟨p, v0, h0, some s.next, none⟩).mem s.next = some ⟨none, dflt, 1, none, none⟩ := by
          rw [mem_set_ne _ (by omega), mem_alloc_self]
        have hfr1 : Fresh ((alloc s none dflt).2.set dst ⟨p, v0, h0, some s.next, none⟩) := fun j hj => by
          have hj : s.next + 1 ≤ j := hj
          rw [mem_set_ne _ (by omega), mem_alloc_ne _ _ _ (by omega), hf j (by omega)]
        obtain ⟨s2, e2, r2, q2, n2, f2, g2⟩ := ihl fuel _ s.next li lp lv lh ll lr none dflt 1 rfl hj1
          (fun hi => by have := idlt hr.2.1 _ hi; omega)
          (hr.2.1.congr fun j hj => by
            rw [mem_set_ne _ (by rintro rfl; exact hdl hj), mem_alloc_ne _ _ _ (by have := idlt hr.2.1 _ hj; omega)]) hfr1 (by omega)
        have nx : ((alloc s none dflt).2.set dst ⟨p, v0, h0, some s.next, none⟩).next = s.next + 1 := rfl
        rw [nx] at r2 n2 f2
        have hd2 : s2.mem dst = some ⟨p, v0, h0, some s.next, none⟩ := by
          rw [f2 dst (by omega) (by omega), mem_set_self]
        refine ⟨s2.set s.next ⟨some dst, lv, 1, ptr (ll.copy (some s.next) (s.next + 1)).1,
          ptr (lr.copy (some s.next) (s.next + 1 + sz ll)).1⟩, ?_, ?_, ?_, q2, ?_, ?_, ?_⟩
        · simp only [ptr_node]
          show (do
            let s' ← change (alloc s none dflt).2 dst fun d => { d with left := some s.next }
            let c ← cell s' si
            match c.left with
            | none => .exc .invalidNode
            | some l => do
              let s ← copyNode dflt fuel s' s.next l
              let d ← cell s dst
              match d.left with
              | none => .ub
              | some j => change s j fun k => { k with par := some dst } : Res (St α)) = _
          simp only [change_eq hd1, Res.bind_ok, cell_eq hs1, e2, cell_eq hd2, change_eq r2.1]
        · rw [copy_node_eq]
          refine ⟨mem_set_self _ _ _, rep_set ?_ r2.2.1, rep_set ?_ r2.2.2⟩
          · rw [copy_ids]; simp
          · rw [copy_ids]; simp; omega
        · rw [mem_set_ne _ (by omega), hd2, copy_node_eq]; rfl
        · show s2.next = _
          rw [n2]; simp only [sz]; omega
        · intro j h1 h2
          rw [mem_set_ne _ (by omega), f2 j (by omega) (by omega), mem_set_ne _ h2, mem_alloc_ne _ _ _ (by omega)]
        · intro j hj
          have hj : s2.next ≤ j := hj
          rw [mem_set_ne _ (by omega), g2 j hj]
    obtain ⟨s1, e1, r1, d1, q1, n1, f1, g1⟩ := left
    have hsi1 : s1.mem si = some ⟨sp, sv, sh, ptr l, ptr r⟩ := by rw [f1 si (lt hr.1) (Ne.symm hds), hr.1]
    have right : ∃ s2, ((match ptr r with
        | none => .ok s1
        | some _ => do
          let (j, s) := alloc s1 none dflt
          let s ← change s dst fun d => { d with right := some j }
          let c ← cell s si
          match c.right with
          | none => .exc .invalidNode
          | some r => do
            let s ← copyNode dflt fuel s j r
            let d ← cell s dst
            match d.right with
            | none => .ub
            | some j => change s j fun k => { k with par := some dst }) : Res (St α)) = .ok s2 ∧
        Rep s2.mem (r.copy (some dst) s1.next).1 ∧
        s2.mem dst = some ⟨p, v0, h0, ptr (l.copy (some dst) s.next).1, ptr (r.copy (some dst) s1.next).1⟩ ∧
        s2.roots = s.roots ∧ s2.next = s1.next + sz r ∧ (∀ j, j < s1.next → j ≠ dst → s2.mem j = s1.mem j) ∧ Fresh s2 := by
      cases r with
      | nil => exact ⟨s1, rfl, trivial, d1, q1, rfl, fun _ _ _ => rfl, g1⟩
      | node ri rp rv rh rl rr =>
        generalize ptr (l.copy (some dst) s.next).1 = lp at d1 ⊢
        have hd1 : (alloc s1 none dflt).2.mem dst = some ⟨p, v0, h0, lp, none⟩ := by rw [mem_alloc_ne _ _ _ (by omega), d1]
        have hs1 : ((alloc s1 none dflt).2.set dst ⟨p, v0, h0, lp, some s1.next⟩).mem si = some ⟨sp, sv, sh, ptr l, some ri⟩ := by
          rw [mem_set_ne _ (Ne.symm hds), mem_alloc_ne _ _ _ (by have := lt hr.1; omega), hsi1]; rfl
        have hj1 : ((alloc s1 none dflt).2.set dst ⟨p, v0, h0, lp, some s1.next⟩).mem s1.next = some ⟨none, dflt, 1, none, none⟩ := by
          rw [mem_set_ne _ (by omega), mem_alloc_self]
        have hfr1 : Fresh ((alloc s1 none dflt).2.set dst ⟨p, v0, h0, lp, some s1.next⟩) := fun j hj => by
          have hj : s1.next + 1 ≤ j := hj
          rw [mem_set_ne _ (by omega), mem_alloc_ne _ _ _ (by omega), g1 j (by omega)]
        obtain ⟨s2, e2, r2, q2, n2, f2, g2⟩ := ihr fuel _ s1.next ri rp rv rh rl rr none dflt 1 rfl hj1
          (fun hi => by have := idlt hr.2.2 _ hi; omega)
          (hr.2.2.congr fun j hj => by
            have hjn := idlt hr.2.2 _ hj
            have hjd : j ≠ dst := by rintro rfl; exact hdr hj
            rw [mem_set_ne _ hjd, mem_alloc_ne _ _ _ (by omega), f1 j hjn hjd]) hfr1 (by omega)
        have nx : ((alloc s1 none dflt).2.set dst ⟨p, v0, h0, lp, some s1.next⟩).next = s1.next + 1 := rfl
        rw [nx] at r2 n2 f2
        have hd2 : s2.mem dst = some ⟨p, v0, h0, lp, some s1.next⟩ := by
          rw [f2 dst (by omega) (by omega), mem_set_self]
        refine ⟨s2.set s1.next ⟨some dst, rv, 1, ptr (rl.copy (some s1.next) (s1.next + 1)).1,
          ptr (rr.copy (some s1.next) (s1.next + 1 + sz rl)).1⟩, ?_, ?_, ?_, q2.trans q1, ?_, ?_, ?_⟩
        · simp only [ptr_node]
          show (do
            let s ← change (alloc s1 none dflt).2 dst fun d => { d with right := some s1.next }
            let c ← cell s si
            match c.right with
            | none => .exc .invalidNode
            | some l => do
              let s ← copyNode dflt fuel s s1.next l
              let d ← cell s dst
              match d.right with
              | none => .ub
              | some j => change s j fun k => { k with par := some dst } : Res (St α)) = _
          simp only [change_eq hd1, Res.bind_ok, cell_eq hs1, e2, cell_eq hd2, change_eq r2.1]
        · rw [copy_node_eq]
          refine ⟨mem_set_self _ _ _, rep_set ?_ r2.2.1, rep_set ?_ r2.2.2⟩
          · rw [copy_ids]; simp
          · rw [copy_ids]; simp; omega
        · rw [mem_set_ne _ (by omega), hd2, copy_node_eq]; rfl
        · show s2.next = _
          rw [n2]; simp only [sz]; omega
        · intro j h1 h2
          rw [mem_set_ne _ (by omega), f2 j (by omega) (by omega), mem_set_ne _ h2, mem_alloc_ne _ _ _ (by omega)]
        · intro j hj
          have hj : s2.next ≤ j := hj
          rw [mem_set_ne _ (by omega), g2 j hj]
    obtain ⟨s2, e2, r2, d2, q2, n2, f2, g2⟩ := right
    have hsi2 : s2.mem si = some ⟨sp, sv, sh, ptr l, ptr r⟩ := by
      rw [f2 si (by have := lt hr.1; omega) (Ne.symm hds), hsi1]
    rw [n1] at r2 d2
    refine ⟨s2.set dst ⟨p, sv, h0, ptr (l.copy (some dst) s.next).1, ptr (r.copy (some dst) (s.next + sz l)).1⟩, ?_, ?_, q2, ?_, ?_, ?_⟩
    · unfold copyNode
      simp only [clearNode_leaf _ hd, Res.bind_ok, cell_eq hr.1]
      refine (congrArg (· >>= _) e1).trans ?_
      simp only [Res.bind_ok, cell_eq hsi1]
      refine (congrArg (· >>= _) e2).trans ?_
      simp only [Res.bind_ok, cell_eq hsi2, change_eq d2]
    · refine ⟨mem_set_self _ _ _, rep_set ?_ ?_, rep_set ?_ r2⟩
      · rw [copy_ids]; simp; omega
      · refine r1.congr fun j hj => ?_
        rw [copy_ids] at hj
        simp at hj
        exact f2 j (by omega) (by omega)
      · rw [copy_ids]; simp; omega
    · show s2.next = _
      rw [n2, n1]
    · intro j h1 h2
      rw [mem_set_ne _ h2, f2 j (by omega) h2, f1 j h1 h2]
    · intro j hj
      have hj : s2.next ≤ j := hj
      rw [mem_set_ne _ (by omega), g2 j hj]

end Verif.Mem
