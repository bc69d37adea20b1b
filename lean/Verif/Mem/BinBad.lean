import Verif.Mem.BinStep

/-! Assignments between a node and one of its descendants: a deleted node is read, or the copy never ends. -/

namespace Verif.Mem
open Avl (Tree)
open Spec
variable {α : Type}

/-! ### More fuel does not change a result -/

/-- The second computation has the result of the first one, unless that is UB. -/
def Le {β : Type} (x y : Res β) : Prop := x = .ub ∨ x = y

theorem Le.refl {β : Type} (x : Res β) : Le x x := .inr rfl

theorem Le.bind {β γ : Type} {x y : Res β} {f g : β → Res γ} (h : Le x y) (h' : ∀ b, Le (f b) (g b)) : Le (x >>= f) (y >>= g) := by
  rcases h with rfl | rfl
  · exact .inl rfl
  · cases x with
    | ok b => exact h' b
    | exc e => exact .inr rfl
    | ub => exact .inr rfl

theorem Le.trans {β : Type} {x y z : Res β} (h : Le x y) (h' : Le y z) : Le x z := by
  rcases h with rfl | rfl
  · exact .inl rfl
  · exact h'

theorem deleteNode_le : ∀ (fuel : Nat) (s : St α) (i : Nat), Le (deleteNode fuel s i) (deleteNode (fuel + 1) s i) := by
  intro fuel
  induction fuel with
  | zero => intro s i; exact .inl rfl
  | succ fuel ih =>
    intro s i
    rw [deleteNode.eq_2, deleteNode.eq_2]
    refine (Le.refl _).bind fun c => Le.bind ?_ fun s => (Le.refl _).bind fun c => Le.bind ?_ fun s => Le.refl _
    · cases c.left with
      | none => exact Le.refl _
      | some l => exact (ih s l).bind fun _ => Le.refl _
    · cases c.right with
      | none => exact Le.refl _
      | some r => exact (ih s r).bind fun _ => Le.refl _

theorem deleteChild_le (fuel : Nat) (s : St α) (i dir : Nat) : Le (deleteChild fuel s i dir) (deleteChild (fuel + 1) s i dir) := by
  unfold deleteChild
  refine (Le.refl _).bind fun c => ?_
  match dir with
  | 0 =>
    cases hl : c.left with
    | none => exact Le.refl _
    | some l => exact (deleteNode_le fuel s l).bind fun _ => Le.refl _
  | 1 =>
    cases hr : c.right with
    | none => exact Le.refl _
    | some r => exact (deleteNode_le fuel s r).bind fun _ => Le.refl _
  | dir + 2 => exact Le.refl _

theorem clearNode_le (fuel : Nat) (s : St α) (i : Nat) : Le (clearNode fuel s i) (clearNode (fuel + 1) s i) :=
  (deleteChild_le fuel s i 0).bind fun p => (deleteChild_le fuel p.2 i 1).bind fun _ => Le.refl _

theorem copyNode_le (dflt : α) : ∀ (fuel : Nat) (s : St α) (dst src : Nat),
    Le (copyNode dflt fuel s dst src) (copyNode dflt (fuel + 1) s dst src) := by
  intro fuel
  induction fuel with
  | zero => intro s i _; exact .inl rfl
  | succ fuel ih =>
    intro s dst src
    rw [copyNode.eq_2, copyNode.eq_2]
    refine (clearNode_le fuel s dst).bind fun s => (Le.refl _).bind fun c => Le.bind ?_ fun s => (Le.refl _).bind fun c =>
      Le.bind ?_ fun s => Le.refl _
    · cases c.left with
      | none => exact Le.refl _
      | some l =>
        refine (Le.refl _).bind fun s => (Le.refl _).bind fun c => ?_
        cases c.left with
        | none => exact Le.refl _
        | some l => exact (ih _ _ _).bind fun _ => Le.refl _
    · cases c.right with
      | none => exact Le.refl _
      | some r =>
        refine (Le.refl _).bind fun s => (Le.refl _).bind fun c => ?_
        cases c.right with
        | none => exact Le.refl _
        | some r => exact (ih _ _ _).bind fun _ => Le.refl _

theorem le_add {β : Type} (f : Nat → Res β) (h : ∀ n, Le (f n) (f (n + 1))) (n m : Nat) : Le (f n) (f (n + m)) := by
  induction m with
  | zero => exact Le.refl _
  | succ m ih => exact ih.trans (h _)

/-- Any fuel gives UB or the result that enough fuel gives. -/
theorem le_ok {β : Type} (f : Nat → Res β) (h : ∀ n, Le (f n) (f (n + 1))) {m : Nat} {b : β} (hm : f m = .ok b) (n : Nat) :
    f n = .ub ∨ f n = .ok b := by
  have h1 := le_add f h n m
  have h2 := le_add f h m n
  rw [Nat.add_comm m n, hm] at h2
  rcases h2 with h2 | h2
  · cases h2
  · rw [← h2] at h1; exact h1

/-! ### Copying from an ancestor -/

theorem ids_putAt_lt {t u : Tree α} {path : List Bool} {n : Nat} (h1 : ∀ i ∈ ids t, i < n) (h2 : ∀ i ∈ ids u, i < n)
    (hn : (ids t).Nodup) : ∀ i ∈ ids (putAt t path u), i < n := by
  intro i hi
  rcases mem_putAt path hn hi with h | h
  · exact h2 i h
  · exact h1 i h.1

theorem subAt_snoc {t u : Tree α} {path : List Bool} (hne : subAt t path ≠ .nil) (b : Bool) :
    subAt (putAt t path u) (path ++ [b]) = subAt u [b] := by
  have := subAt_putAt_prefix path [] t u hne
  rw [List.append_nil] at this
  rw [subAt_append, this]
  cases subAt t path <;> rfl

/-- What is needed to hang a leaf below the leaf at the end of the path. -/
theorem rep_grow {s : St α} {m' : Nat → Option (Cell α)} {t u : Tree α} {path : List Bool} {d : Nat} {p : Ptr} {v : α} {h : Nat}
    (hr : Rep s.mem t) (hn : (ids t).Nodup) (hd : subAt t path = .node d p v h .nil .nil) (hpu : ptr u = some d) (hu : Rep m' u)
    (hnu : (ids u).Nodup) (hfr : ∀ i ∈ ids t, i ≠ d → m' i = s.mem i) (hids : ∀ i ∈ ids u, i = d ∨ i ∉ ids t) :
    Rep m' (putAt t path u) ∧ (ids (putAt t path u)).Nodup ∧ ptr (putAt t path u) = ptr t := by
  refine ⟨rep_putAt path hr hn (by rw [hd, hpu]; rfl) hu fun i hi hi' => hfr i hi ?_, nodup_putAt path hn hnu fun i hi hi' => ?_,
    ptr_putAt path (by rw [hd, hpu]; rfl)⟩
  · rintro rfl
    exact hi' (by rw [hd]; simp [ids])
  · rcases hids i hi with rfl | h'
    · rw [hd]; simp [ids]
    · exact absurd hi' h'

theorem alloc_fst (s : St α) (p : Ptr) (x : α) : (alloc s p x).1 = s.next := rfl

/-- Copying to a leaf from a proper ancestor never ends: every amount of fuel is used up. -/
theorem copyNode_ancestor (dflt : α) : ∀ (fuel : Nat) (s : St α) (t : Tree α) (src dst : Nat) (path : List Bool) (p : Ptr) (v : α) (h : Nat),
    Rep s.mem t → (ids t).Nodup → Fresh s → ptr t = some src → path ≠ [] → subAt t path = .node dst p v h .nil .nil →
    copyNode dflt fuel s dst src = .ub := by
  intro fuel
  induction fuel with
  | zero => intros; rfl
  | succ fuel ih =>
    intro s t src dst path p v h hr hn hf hp hne hd
    obtain ⟨b, path, rfl⟩ : ∃ b q, path = b :: q := List.exists_cons_of_ne_nil hne
    cases t with
    | nil => cases hp
    | node i sp sv sh l r =>
      simp only [ptr_node, Option.some.injEq] at hp
      subst hp
      obtain ⟨n1, n2, n3, n4, n5⟩ := nodup_node.1 hn
      have hlt : ∀ j ∈ ids (.node i sp sv sh l r), j < s.next := fun j hj => by
        obtain ⟨c, hc⟩ := hr.some hj
        by_contra hge
        rw [hf j (by omega)] at hc
        cases hc
      have hdm : s.mem dst = some ⟨p, v, h, none, none⟩ := by
        have := rep_subAt (b :: path) hr
        rw [hd] at this
        exact this.1
      have hdb : dst ∈ ids (if b then r else l) := by
        have : dst ∈ ids (subAt (if b then r else l) path) := by
          have e : subAt (if b then r else l) path = .node dst p v h .nil .nil := hd
          rw [e]; simp [ids]
        exact mem_subAt path this
      have hdlt : dst < s.next := hlt dst (by cases b <;> simp [ids] at hdb ⊢ <;> tauto)
      have hdi : dst ≠ i := by
        rintro rfl
        cases b
        · exact n1 hdb
        · exact n2 hdb
      have hil : i < s.next := hlt i (by simp [ids])
      have hsm := hr.1
      -- the state after allocating a node and hanging it below `dst`
      have base : ∀ (s : St α) (q : Ptr), Fresh s → s.mem i = some ⟨sp, sv, sh, ptr l, ptr r⟩ → i < s.next → dst < s.next →
          ∀ c, Fresh ((alloc s none dflt).2.set dst c) ∧ ((alloc s none dflt).2.set dst c).mem i = some ⟨sp, sv, sh, ptr l, ptr r⟩ ∧
            ((alloc s none dflt).2.set dst c).mem s.next = some ⟨none, dflt, 1, none, none⟩ ∧
            (∀ a, a ≠ s.next → a ≠ dst → ((alloc s none dflt).2.set dst c).mem a = s.mem a) := by
        intro s q hf hi hil hdl c
        have ha : ∀ a, a ≠ s.next → a ≠ dst → ((alloc s none dflt).2.set dst c).mem a = s.mem a := fun a h1 h2 => by
          rw [mem_set_ne _ h2]; exact mem_alloc_ne _ _ _ h1
        refine ⟨fun a ha' => ?_, ?_, ?_, ha⟩
        · have ha' : s.next + 1 ≤ a := ha'
          rw [ha a (by omega) (by omega), hf a (by omega)]
        · rw [ha i (by omega) (Ne.symm hdi), hi]
        · rw [mem_set_ne _ (by omega)]
          exact mem_alloc_self _ _ _
      rw [copyNode.eq_2]
      simp only [clearNode_leaf fuel hdm, Res.bind_ok, cell_eq hsm]
      cases b with
      | false =>
        -- the leaf is in the left subtree
        have hd' : subAt l path = .node dst p v h .nil .nil := hd
        have hdl : dst ∈ ids l := hdb
        cases hl : ptr l with
        | none => rw [ptr_none.1 hl] at hdl; cases hdl
        | some li =>
          simp only
          have hda : (alloc s none dflt).2.mem dst = some ⟨p, v, h, none, none⟩ := by rw [mem_alloc_ne _ _ _ (by omega), hdm]
          obtain ⟨b1, b2, b3, b4⟩ := base s none hf hsm hil hdlt ⟨p, v, h, some s.next, none⟩
          have key : copyNode dflt fuel ((alloc s none dflt).2.set dst ⟨p, v, h, some s.next, none⟩) s.next li = .ub := by
            obtain ⟨g1, g2, g3⟩ := rep_grow (m' := ((alloc s none dflt).2.set dst ⟨p, v, h, some s.next, none⟩).mem)
              (u := .node dst p v h (.node s.next none dflt 1 .nil .nil) .nil) hr.2.1 n3 hd' rfl
              ⟨mem_set_self _ _ _, ⟨b3, trivial, trivial⟩, trivial⟩ (by simp [ids]; omega)
              (fun a ha had => b4 a (by have := hlt a (by simp [ids, ha]); omega) had)
              (fun a ha => by
                simp only [ids, List.append_nil, List.mem_cons, List.not_mem_nil, or_false] at ha
                rcases ha with rfl | rfl
                · exact .inl rfl
                · exact .inr fun hc => by have := hlt s.next (by simp [ids, hc]); omega)
            exact ih _ _ _ _ (path ++ [false]) none dflt 1 g1 g2 b1 (g3.trans hl) (by simp)
              (subAt_snoc (by rw [hd']; simp) false)
          simp only [alloc_fst, change_eq hda, Res.bind_ok, cell_eq b2, hl, key, Res.bind_ub]
      | true =>
        have hd' : subAt r path = .node dst p v h .nil .nil := hd
        have hdr : dst ∈ ids r := hdb
        cases hr' : ptr r with
        | none => rw [ptr_none.1 hr'] at hdr; cases hdr
        | some ri =>
          -- the second half, after copying the left subtree
          have half : ∀ (s' : St α) (u : Tree α), Fresh s' → s.next ≤ s'.next → s'.mem i = some ⟨sp, sv, sh, ptr l, ptr r⟩ →
              s'.mem dst = some ⟨p, v, h, ptr u, none⟩ → Rep s'.mem u → (ids u).Nodup → (∀ a ∈ ids u, s.next ≤ a) →
              (∀ a ∈ ids r, a ≠ dst → s'.mem a = s.mem a) →
              ((do
                let c ← cell s' i
                let s ← (match c.right with
                  | none => .ok s'
                  | some _ => do
                    let (j, s) := alloc s' none dflt
                    let s ← change s dst fun d => { d with right := some j }
                    let c ← cell s i
                    match c.right with
                    | none => .exc .invalidNode
                    | some r => do
                      let s ← copyNode dflt fuel s j r
                      let d ← cell s dst
                      match d.right with
                      | none => .ub
                      | some j => change s j fun k => { k with par := some dst })
                let c ← cell s i
                change s dst fun d => { d with val := c.val }) : Res (St α)) = .ub := by
            intro s' u hf' hle hi' hd1 hru hnu hge hfr
            have hda : (alloc s' none dflt).2.mem dst = some ⟨p, v, h, ptr u, none⟩ := by rw [mem_alloc_ne _ _ _ (by omega), hd1]
            obtain ⟨b1, b2, b3, b4⟩ := base s' none hf' hi' (by omega) (by omega) ⟨p, v, h, ptr u, some s'.next⟩
            have hult : ∀ a ∈ ids u, a < s'.next := fun a ha => by
              obtain ⟨c, hc⟩ := hru.some ha
              by_contra hge
              rw [hf' a (by omega)] at hc
              cases hc
            have key : copyNode dflt fuel ((alloc s' none dflt).2.set dst ⟨p, v, h, ptr u, some s'.next⟩) s'.next ri = .ub := by
              obtain ⟨g1, g2, g3⟩ := rep_grow (m' := ((alloc s' none dflt).2.set dst ⟨p, v, h, ptr u, some s'.next⟩).mem)
                (u := .node dst p v h u (.node s'.next none dflt 1 .nil .nil)) hr.2.2 n4 hd' rfl
                ⟨mem_set_self _ _ _, hru.congr fun a ha => b4 a (by have := hult a ha; omega) (by have := hge a ha; omega),
                  ⟨b3, trivial, trivial⟩⟩
                (nodup_node.2 ⟨fun hc => by have := hge _ hc; omega, by simp [ids]; omega, hnu, by simp [ids], fun a ha hc => by
                  simp only [ids, List.append_nil, List.mem_singleton] at hc
                  have := hult a ha; omega⟩)
                (fun a ha had => by
                  rw [b4 a (by have := hlt a (by simp [ids, ha]); omega) had, hfr a ha had])
                (fun a ha => by
                  simp only [ids, List.append_nil, List.mem_cons, List.mem_append, List.not_mem_nil, or_false] at ha
                  rcases ha with rfl | ha | rfl
                  · exact .inl rfl
                  · exact .inr fun hc => by have := hlt a (by simp [ids, hc]); have := hge a ha; omega
                  · exact .inr fun hc => by have := hlt s'.next (by simp [ids, hc]); omega)
              refine ih _ _ _ _ (path ++ [true]) none dflt 1 g1 g2 b1 (g3.trans hr') (by simp) ?_
              rw [subAt_snoc (by rw [hd']; simp) true]
              rfl
            simp only [alloc_fst, change_eq hda, Res.bind_ok, cell_eq b2, cell_eq hi', hr', key, Res.bind_ub]
          cases hl : ptr l with
          | none =>
            simp only [Res.bind_ok]
            rw [hl] at half hsm
            exact half s .nil hf (Nat.le_refl _) hsm hdm trivial (by simp [ids]) (by simp [ids]) (fun _ _ _ => rfl)
          | some li =>
            have hda : (alloc s none dflt).2.mem dst = some ⟨p, v, h, none, none⟩ := by rw [mem_alloc_ne _ _ _ (by omega), hdm]
            obtain ⟨b1, b2, b3, b4⟩ := base s none hf hsm hil hdlt ⟨p, v, h, some s.next, none⟩
            simp only [alloc_fst, change_eq hda, Res.bind_ok, cell_eq b2, hl]
            generalize hs2 : (alloc s none dflt).2.set dst ⟨p, v, h, some s.next, none⟩ = s2 at *
            have x2 : s2.next = s.next + 1 := by rw [← hs2]; rfl
            have hd2 : s2.mem dst = some ⟨p, v, h, some s.next, none⟩ := by rw [← hs2]; exact mem_set_self _ _ _
            cases l with
            | nil => cases hl
            | node li' lp lv lh ll lr =>
              simp only [ptr_node, Option.some.injEq] at hl
              subst hl
              have hll : ∀ a ∈ ids (.node li' lp lv lh ll lr), a < s.next ∧ a ≠ dst := fun a ha =>
                ⟨hlt a (by simp [ids] at ha ⊢; tauto), by rintro rfl; exact n5 a ha hdr⟩
              have hl2 : Rep s2.mem (.node li' lp lv lh ll lr) := hr.2.1.congr fun a ha => b4 a (by have := (hll a ha).1; omega) (hll a ha).2
              obtain ⟨s3, e3, r3, q3, x3, f3, g3⟩ := copyNode_rep dflt _ (sz (.node li' lp lv lh ll lr)) s2 s.next li' lp lv lh ll lr none dflt 1
                rfl b3 (fun hc => by have := (hll _ hc).1; omega) hl2 b1 (Nat.le_refl _)
              rcases le_ok (fun n => copyNode dflt n s2 s.next li') (fun n => copyNode_le dflt n s2 s.next li') e3 fuel with e | e
              · simp only [e, Res.bind_ub]
              · have hd3 : s3.mem dst = some ⟨p, v, h, some s.next, none⟩ := by rw [f3 dst (by omega) (by omega), hd2]
                have hu3 := r3.1
                simp only [e, Res.bind_ok, cell_eq hd3, change_eq hu3]
                have hids : ∀ a, a ∈ ids (.node s.next (some dst) lv 1 (ll.copy (some s.next) s2.next).1
                    (lr.copy (some s.next) (s2.next + sz ll)).1 : Tree α) ↔ s.next ≤ a ∧ a < s3.next := by
                  intro a
                  simp only [ids, copy_ids, List.mem_cons, List.mem_append, List.mem_range'_1]
                  omega
                refine half _ (.node s.next (some dst) lv 1 (ll.copy (some s.next) s2.next).1
                    (lr.copy (some s.next) (s2.next + sz ll)).1) ?_ ?_ ?_ ?_ ⟨mem_set_self _ _ _, ?_, ?_⟩ ?_ ?_ ?_
                · intro a ha
                  have ha : s3.next ≤ a := ha
                  rw [mem_set_ne _ (by omega), g3 a ha]
                · have : (s3.set s.next ⟨some dst, lv, 1, ptr (ll.copy (some s.next) s2.next).1,
                    ptr (lr.copy (some s.next) (s2.next + sz ll)).1⟩).next = s3.next := rfl
                  omega
                · rw [mem_set_ne _ (by omega), f3 i (by omega) (by omega), b2]
                · rw [mem_set_ne _ (by omega), hd3]; rfl
                · refine rep_set ?_ r3.2.1
                  rw [copy_ids]; simp; omega
                · refine rep_set ?_ r3.2.2
                  rw [copy_ids]; simp; omega
                · refine nodup_node.2 ⟨?_, ?_, ?_, ?_, ?_⟩
                  · rw [copy_ids]; simp; omega
                  · rw [copy_ids]; simp; omega
                  · rw [copy_ids]; exact List.nodup_range'
                  · rw [copy_ids]; exact List.nodup_range'
                  · intro j hj hj'
                    rw [copy_ids] at hj hj'
                    simp only [List.mem_range'_1] at hj hj'
                    omega
                · intro a ha; exact ((hids a).1 ha).1
                · intro a ha had
                  have := hlt a (by simp [ids, ha])
                  rw [mem_set_ne _ (by omega), f3 a (by omega) (by omega), b4 a (by omega) had]

/-- Copying to a node from a proper ancestor never ends. -/
theorem assign_up (dflt : α) {s : St α} {T : Nat → Tree α} (h : Inv s T) {k : Nat} {p q : List Bool} (hb : Below k q k p)
    {dst src : Nat} (hd : ptr (subAt (T k) p) = some dst) (hs : ptr (subAt (T k) q) = some src) (fuel : Nat) :
    copyNode dflt fuel s dst src = .ub := by
  obtain ⟨-, ⟨r, rfl⟩, hne⟩ := hb
  cases htk : subAt (T k) (q ++ r) with
  | nil => rw [htk] at hd; cases hd
  | node i ip v hh l' r' =>
    rw [htk] at hd
    simp only [ptr_node, Option.some.injEq] at hd
    subst hd
    obtain ⟨s1, e1, l1, x1⟩ := clear_loc (fuel := s.fuel) (htk ▸ rep_subAt _ (h.rep k)) (htk ▸ nodup_subAt _ (h.nodup k)) h.fresh (by
      have := h.fuel k (q ++ r)
      rw [htk] at this
      rw [ids_length]; omega)
    have h1 := l1.inv h htk
    have hne' : subAt (T k) q ≠ .nil := by intro e; rw [e] at hs; cases hs
    have hsub : subAt (upd T k (putAt (T k) (q ++ r) (.node i ip v hh .nil .nil)) k) q = putAt (subAt (T k) q) r (.node i ip v hh .nil .nil) := by
      rw [upd_self, subAt_putAt_prefix _ _ _ _ hne']
    have hput : subAt (putAt (subAt (T k) q) r (.node i ip v hh .nil .nil)) r = .node i ip v hh .nil .nil := by
      have := subAt_putAt_prefix r [] (subAt (T k) q) (.node i ip v hh .nil .nil) (by rw [← subAt_append, htk]; simp)
      rw [List.append_nil] at this
      rw [this]
      cases subAt (subAt (T k) q) r <;> rfl
    have hub : ∀ n, copyNode dflt n s1 i src = .ub := fun n => by
      refine copyNode_ancestor dflt n s1 _ src i r ip v hh (rep_subAt q (h1.rep k)) (nodup_subAt q (h1.nodup k)) l1.fresh ?_ ?_ ?_
      · rw [hsub, ptr_putAt r, hs]
        rw [← subAt_append, htk]; rfl
      · rintro rfl
        exact hne (by simp)
      · rw [hsub, hput]
    cases fuel with
    | zero => rfl
    | succ fuel =>
      rw [copyNode.eq_2]
      rcases le_ok (fun n => clearNode n s i) (fun n => clearNode_le n s i) e1 fuel with e | e
      · simp only [e, Res.bind_ub]
      · rw [e]
        have := hub (fuel + 1)
        rw [copyNode.eq_2, clearNode_leaf fuel l1.rep.1] at this
        exact this

/-! ### Assigning from a descendant -/

/-- The `clear()` at the beginning deletes the source. -/
theorem clear_below {s : St α} {T : Nat → Tree α} (h : Inv s T) {k : Nat} {p q : List Bool} (hb : Below k p k q)
    {dst src : Nat} (hd : ptr (subAt (T k) p) = some dst) (hs : ptr (subAt (T k) q) = some src) (fuel : Nat) :
    clearNode fuel s dst = .ub ∨ ∃ s', clearNode fuel s dst = .ok s' ∧ s'.mem src = none := by
  obtain ⟨-, ⟨r, rfl⟩, hne⟩ := hb
  cases htk : subAt (T k) p with
  | nil => rw [htk] at hd; cases hd
  | node i ip v hh l' r' =>
    rw [htk] at hd
    simp only [ptr_node, Option.some.injEq] at hd
    subst hd
    have hn := nodup_subAt p (h.nodup k)
    rw [htk] at hn
    obtain ⟨s1, e1, l1, x1⟩ := clear_loc (fuel := s.fuel) (htk ▸ rep_subAt _ (h.rep k)) hn h.fresh (by
      have := h.fuel k p
      rw [htk] at this
      rw [ids_length]; omega)
    rw [subAt_append, htk] at hs
    obtain ⟨b, r, rfl⟩ : ∃ b q, r = b :: q := List.exists_cons_of_ne_nil (by rintro rfl; exact hne (by simp))
    have hmem : src ∈ ids (if b then r' else l') := mem_subAt r (ptr_mem hs)
    obtain ⟨n1, n2, -⟩ := nodup_node.1 hn
    have hfree : s1.mem src = none := by
      refine l1.free src ?_ ?_
      · cases b <;> simp [ids] at hmem ⊢ <;> tauto
      · simp only [ids, List.append_nil, List.mem_singleton]
        rintro rfl
        cases b
        · exact n1 hmem
        · exact n2 hmem
    rcases le_ok (fun n => clearNode n s i) (fun n => clearNode_le n s i) e1 fuel with e | e
    · exact .inl e
    · exact .inr ⟨s1, e, hfree⟩

theorem assign_down (dflt : α) {s : St α} {T : Nat → Tree α} (h : Inv s T) {k : Nat} {p q : List Bool} (hb : Below k p k q)
    {dst src : Nat} (hd : ptr (subAt (T k) p) = some dst) (hs : ptr (subAt (T k) q) = some src) (fuel : Nat) :
    copyNode dflt fuel s dst src = .ub ∧ moveNode fuel s dst src = .ub := by
  constructor
  · cases fuel with
    | zero => rfl
    | succ fuel =>
      rw [copyNode.eq_2]
      rcases clear_below h hb hd hs fuel with e | ⟨s1, e, hf⟩
      · simp only [e, Res.bind_ub]
      · simp only [e, Res.bind_ok, cell, hf, Res.bind_ub]
  · unfold moveNode
    rcases clear_below h hb hd hs fuel with e | ⟨s1, e, hf⟩
    · simp only [e, Res.bind_ub]
    · simp only [e, Res.bind_ok, cell, hf, Res.bind_ub]

theorem Inv.follow {s : St α} {T : Nat → Tree α} (h : Inv s T) (k : Nat) (p : List Bool) :
    follow s (s.roots k) p = ptr (subAt (T k) p) := by rw [h.root k, follow_rep p (h.rep k)]

theorem onNode_some {s : St α} {T : Nat → Tree α} (h : Inv s T) {k : Nat} {path : List Bool} (f : Nat → Res (BOut × St α)) {i : Nat}
    (hi : ptr (subAt (T k) path) = some i) : onNode s k path f = f i := by rw [onNode_rep h, hi]

theorem onNode_none {s : St α} {T : Nat → Tree α} (h : Inv s T) {k : Nat} {path : List Bool} (f : Nat → Res (BOut × St α))
    (hi : ptr (subAt (T k) path) = none) : onNode s k path f = .ok (.thrown, s) := by rw [onNode_rep h, hi]

/-- The operations that are not safe are UB if their nodes exist; otherwise they throw. -/
theorem bstep_bad (dflt : α) {s : St α} {T : Nat → Tree α} (h : Inv s T) (op : BOp α) (hs : ¬ NodeSafe op) :
    (NodesExist s op → bstep dflt s op = .ub) ∧ (¬ NodesExist s op → bstep dflt s op = .ok (.thrown, s)) := by
  cases op with
  | assign k p j q =>
    simp only [NodesExist, h.follow, bstep]
    rcases hj : (ptr (subAt (T j) q) : Option Nat) with _ | src
    · exact ⟨fun hc => absurd rfl hc.2, fun _ => onNode_none h _ hj⟩
    · rw [onNode_some h _ hj]
      rcases hk : (ptr (subAt (T k) p) : Option Nat) with _ | dst
      · exact ⟨fun hc => absurd rfl hc.1, fun _ => onNode_none h _ hk⟩
      · rw [onNode_some h _ hk]
        have : copyNode dflt s.fuel s dst src = .ub := by
          simp only [NodeSafe, not_and_or, not_not] at hs
          rcases hs with hb | hb
          · obtain rfl := hb.1
            exact (assign_down dflt h hb hk hj _).1
          · obtain rfl := hb.1
            exact assign_up dflt h hb hk hj _
        exact ⟨fun _ => by rw [this]; rfl, fun hc => absurd ⟨by simp, by simp⟩ hc⟩
  | moveAssign k p j q =>
    simp only [NodesExist, h.follow, bstep]
    rcases hj : (ptr (subAt (T j) q) : Option Nat) with _ | src
    · exact ⟨fun hc => absurd rfl hc.2, fun _ => onNode_none h _ hj⟩
    · rw [onNode_some h _ hj]
      rcases hk : (ptr (subAt (T k) p) : Option Nat) with _ | dst
      · exact ⟨fun hc => absurd rfl hc.1, fun _ => onNode_none h _ hk⟩
      · rw [onNode_some h _ hk]
        have : moveNode s.fuel s dst src = .ub := by
          simp only [NodeSafe, not_not] at hs
          obtain rfl := hs.1
          exact (assign_down dflt h hs hk hj _).2
        exact ⟨fun _ => by rw [this]; rfl, fun hc => absurd ⟨by simp, by simp⟩ hc⟩
  | _ => exact absurd trivial hs

end Verif.Mem
