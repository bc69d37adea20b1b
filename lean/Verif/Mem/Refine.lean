import Verif.Mem.Lemmas

/-! `insert`, `remove`, `delete` on the memory do what the tree model says. -/

namespace Verif.Mem
open Avl (Tree)
set_option linter.unusedSectionVars false
variable {α : Type}

/-! ### Slots -/

def owner : Slot → List Nat
  | .root _ => []
  | .left i => [i]
  | .right i => [i]

def setSlot (s : St α) (slot : Slot) (p : Ptr) : St α :=
  match slot with
  | .root k => s.setRoot k p
  | .left i => match s.mem i with
    | some c => s.set i { c with left := p }
    | none => s
  | .right i => match s.mem i with
    | some c => s.set i { c with right := p }
    | none => s

/-- The slot exists and holds `p`. -/
def Holds (s : St α) (slot : Slot) (p : Ptr) : Prop := readSlot s slot = .ok p

theorem holds_left {s : St α} {i : Nat} {p : Ptr} : Holds s (.left i) p ↔ ∃ c, s.mem i = some c ∧ c.left = p := by
  simp only [Holds, readSlot, cell]
  cases s.mem i <;> simp

theorem holds_right {s : St α} {i : Nat} {p : Ptr} : Holds s (.right i) p ↔ ∃ c, s.mem i = some c ∧ c.right = p := by
  simp only [Holds, readSlot, cell]
  cases s.mem i <;> simp

theorem holds_root {s : St α} {k : Nat} {p : Ptr} : Holds s (.root k) p ↔ s.roots k = p := by
  simp only [Holds, readSlot, Res.ok.injEq]

theorem setSlot_self {s : St α} {slot : Slot} {p : Ptr} (h : Holds s slot p) : setSlot s slot p = s := by
  cases slot with
  | root k =>
    rw [holds_root] at h
    subst h
    simp only [setSlot, St.setRoot]
    congr 1
    funext j
    by_cases hj : j = k <;> simp [hj]
  | left i =>
    obtain ⟨c, hc, rfl⟩ := holds_left.1 h
    simp only [setSlot, hc, St.set]
    congr 1
    funext j
    by_cases hj : j = i <;> simp [hj, hc]
  | right i =>
    obtain ⟨c, hc, rfl⟩ := holds_right.1 h
    simp only [setSlot, hc, St.set]
    congr 1
    funext j
    by_cases hj : j = i <;> simp [hj, hc]

@[simp] theorem next_setSlot (s : St α) (slot : Slot) (p : Ptr) : (setSlot s slot p).next = s.next := by
  cases slot <;> simp only [setSlot] <;> (try split) <;> rfl

theorem mem_setSlot {s : St α} {slot : Slot} {p : Ptr} {j : Nat} (hj : j ∉ owner slot) : (setSlot s slot p).mem j = s.mem j := by
  cases slot with
  | root k => rfl
  | left i =>
    simp only [owner, List.mem_singleton] at hj
    simp only [setSlot]
    split
    · exact mem_set_ne _ hj _
    · rfl
  | right i =>
    simp only [owner, List.mem_singleton] at hj
    simp only [setSlot]
    split
    · exact mem_set_ne _ hj _
    · rfl

theorem rep_setSlot {s : St α} {slot : Slot} {p : Ptr} {t : Tree α} (ho : ∀ o ∈ owner slot, o ∉ ids t) (h : Rep s.mem t) :
    Rep (setSlot s slot p).mem t :=
  h.congr fun j hj => mem_setSlot fun hj' => ho j hj' hj

/-- Outside `S` the only difference is that the slot now holds `p`. -/
structure Eff (slot : Slot) (p : Ptr) (S : List Nat) (s s' : St α) : Prop where
  roots : s'.roots = (setSlot s slot p).roots
  frame : ∀ j, j ∉ S → s'.mem j = (setSlot s slot p).mem j

theorem Eff.upd {slot : Slot} {p : Ptr} {S S' : List Nat} {s s' s'' : St α} (h : Eff slot p S s s') (u : Upd S' s' s'')
    (hS : ∀ j ∈ S', j ∈ S) : Eff slot p S s s'' :=
  ⟨u.roots.trans h.roots, fun j hj => (u.frame j fun hj' => hj (hS j hj')).trans (h.frame j hj)⟩

theorem Eff.mono {slot : Slot} {p : Ptr} {S S' : List Nat} {s s' : St α} (h : Eff slot p S s s') (hS : ∀ j ∈ S, j ∈ S') :
    Eff slot p S' s s' := ⟨h.roots, fun j hj => h.frame j fun hj' => hj (hS j hj')⟩

theorem Eff.holds {slot : Slot} {p q : Ptr} {S : List Nat} {s s' : St α} (h : Eff slot p S s s') (hs : Holds s slot q)
    (ho : ∀ o ∈ owner slot, o ∉ S) : Holds s' slot p := by
  cases slot with
  | root k => rw [holds_root, h.roots]; simp [setSlot, St.setRoot]
  | left i =>
    obtain ⟨c, hc, rfl⟩ := holds_left.1 hs
    have := h.frame i (ho i (by simp [owner]))
    simp only [setSlot, hc, mem_set_self] at this
    exact holds_left.2 ⟨_, this, rfl⟩
  | right i =>
    obtain ⟨c, hc, rfl⟩ := holds_right.1 hs
    have := h.frame i (ho i (by simp [owner]))
    simp only [setSlot, hc, mem_set_self] at this
    exact holds_right.2 ⟨_, this, rfl⟩

theorem writeSlot_eq {slot : Slot} {p q : Ptr} {s : St α} (hs : Holds s slot q) : writeSlot s slot p = .ok (setSlot s slot p) := by
  cases slot with
  | root k => rfl
  | left i =>
    obtain ⟨c, hc, rfl⟩ := holds_left.1 hs
    simp [writeSlot, setSlot, change, hc]
  | right i =>
    obtain ⟨c, hc, rfl⟩ := holds_right.1 hs
    simp [writeSlot, setSlot, change, hc]

theorem Eff.write {slot : Slot} {p q r : Ptr} {S : List Nat} {s s' : St α} (h : Eff slot p S s s') (hs : Holds s slot q)
    (ho : ∀ o ∈ owner slot, o ∉ S) : Eff slot r S s (setSlot s' slot r) := by
  cases slot with
  | root k =>
    refine ⟨?_, fun j hj => ?_⟩
    · simp only [setSlot, St.setRoot]
      have := h.roots
      simp only [setSlot, St.setRoot] at this
      rw [this]
      funext j
      by_cases hj : j = k <;> simp [hj]
    · exact (h.frame j hj).trans rfl
  | left i =>
    obtain ⟨c, hc, rfl⟩ := holds_left.1 hs
    have hi := h.frame i (ho i (by simp [owner]))
    simp only [setSlot, hc, mem_set_self] at hi
    refine ⟨?_, fun j hj => ?_⟩
    · simp only [setSlot, hc, hi, roots_set]
      have := h.roots
      simpa [setSlot, hc] using this
    · simp only [setSlot, hc, hi]
      have := h.frame j hj
      simp only [setSlot, hc] at this
      by_cases hji : j = i
      · subst hji; simp
      · rw [mem_set_ne _ hji, this, mem_set_ne _ hji, mem_set_ne _ hji]
  | right i =>
    obtain ⟨c, hc, rfl⟩ := holds_right.1 hs
    have hi := h.frame i (ho i (by simp [owner]))
    simp only [setSlot, hc, mem_set_self] at hi
    refine ⟨?_, fun j hj => ?_⟩
    · simp only [setSlot, hc, hi, roots_set]
      have := h.roots
      simpa [setSlot, hc] using this
    · simp only [setSlot, hc, hi]
      have := h.frame j hj
      simp only [setSlot, hc] at this
      by_cases hji : j = i
      · subst hji; simp
      · rw [mem_set_ne _ hji, this, mem_set_ne _ hji, mem_set_ne _ hji]

/-- Existing nodes stay and keep their values. -/
def Keep (s s' : St α) : Prop := ∀ j c, s.mem j = some c → ∃ c', s'.mem j = some c' ∧ c'.val = c.val

theorem Keep.trans {s s' s'' : St α} (h : Keep s s') (h' : Keep s' s'') : Keep s s'' := fun j c hj => by
  obtain ⟨c', h1, h2⟩ := h j c hj
  obtain ⟨c'', h3, h4⟩ := h' j c' h1
  exact ⟨c'', h3, h4.trans h2⟩

theorem keep_setSlot (s : St α) (slot : Slot) (p : Ptr) : Keep s (setSlot s slot p) := by
  intro j c hj
  cases slot with
  | root k => exact ⟨c, hj, rfl⟩
  | left i =>
    simp only [setSlot]
    split
    · rename_i d hd
      by_cases hji : j = i
      · subst hji
        rw [hd] at hj
        cases hj
        exact ⟨_, mem_set_self _ _ _, rfl⟩
      · exact ⟨c, by rw [mem_set_ne _ hji, hj], rfl⟩
    · exact ⟨c, hj, rfl⟩
  | right i =>
    simp only [setSlot]
    split
    · rename_i d hd
      by_cases hji : j = i
      · subst hji
        rw [hd] at hj
        cases hj
        exact ⟨_, mem_set_self _ _ _, rfl⟩
      · exact ⟨c, by rw [mem_set_ne _ hji, hj], rfl⟩
    · exact ⟨c, hj, rfl⟩

theorem deref_keep {s s' : St α} (h : Keep s s') {ref : Ref α} {x : α} (hx : deref s ref = .ok x) : deref s' ref = .ok x := by
  cases ref with
  | val y => exact hx
  | node i =>
    simp only [deref, cell] at hx ⊢
    cases hc : s.mem i with
    | none => simp [hc] at hx
    | some c =>
      simp [hc] at hx
      obtain ⟨c', h1, h2⟩ := h i c hc
      simp [h1, h2, hx]

/-! ### Deleting -/

theorem deleteNode_rep (t : Tree α) : ∀ (fuel : Nat) (s : St α) (i : Nat), ptr t = some i → Rep s.mem t → (ids t).Nodup →
    (ids t).length ≤ fuel → ∃ s', deleteNode fuel s i = .ok s' ∧ s'.roots = s.roots ∧ s'.next = s.next ∧
      ∀ j, s'.mem j = if j ∈ ids t then none else s.mem j := by
  induction t with
  | nil => intro _ _ _ h; cases h
  | node i p v h l r ihl ihr =>
    rintro fuel s _ ⟨rfl⟩ ⟨hi, hl, hr⟩ hn hf
    obtain ⟨n1, n2, n3, n4, n5⟩ := nodup_node.1 hn
    simp only [ids, List.length_cons, List.length_append] at hf
    obtain ⟨fuel, rfl⟩ : ∃ f, fuel = f + 1 := ⟨fuel - 1, by omega⟩
    have h1 : ∃ s1, ((match ptr l with
        | some l => do
          let s ← deleteNode fuel s l
          change s i fun c => { c with left := none }
        | none => .ok s) : Res (St α)) = .ok s1 ∧ s1.roots = s.roots ∧ s1.next = s.next ∧
        s1.mem i = some ⟨p, v, h, none, ptr r⟩ ∧ ∀ j, j ≠ i → s1.mem j = if j ∈ ids l then none else s.mem j := by
      cases hpl : ptr l with
      | none =>
        rw [ptr_none] at hpl
        subst hpl
        exact ⟨s, rfl, rfl, rfl, hi, fun j hj => by simp [ids]⟩
      | some k =>
        obtain ⟨s1, e1, a1, b1, c1⟩ := ihl fuel s k hpl hl n3 (by omega)
        have hi1 : s1.mem i = some ⟨p, v, h, ptr l, ptr r⟩ := by rw [c1, if_neg n1, hi]
        refine ⟨s1.set i ⟨p, v, h, none, ptr r⟩, ?_, a1, b1, mem_set_self _ _ _, fun j hj => ?_⟩
        · simp [e1, change_eq hi1]
        · rw [mem_set_ne _ hj, c1]
    obtain ⟨s1, e1, a1, b1, i1, c1⟩ := h1
    have hr1 : Rep s1.mem r := hr.congr fun j hj => by
      rw [c1 j (by rintro rfl; exact n2 hj), if_neg fun hj' => n5 j hj' hj]
    have h2 : ∃ s2, ((match ptr r with
        | some l => do
          let s ← deleteNode fuel s1 l
          change s i fun c => { c with right := none }
        | none => .ok s1) : Res (St α)) = .ok s2 ∧ s2.roots = s.roots ∧ s2.next = s.next ∧
        (∃ c, s2.mem i = some c) ∧ ∀ j, j ≠ i → s2.mem j = if j ∈ ids r then none else s1.mem j := by
      cases hpr : ptr r with
      | none =>
        rw [ptr_none] at hpr
        subst hpr
        exact ⟨s1, rfl, a1, b1, ⟨_, i1⟩, fun j hj => by simp [ids]⟩
      | some k =>
        obtain ⟨s2, e2, a2, b2, c2⟩ := ihr fuel s1 k hpr hr1 n4 (by omega)
        have hi2 : s2.mem i = some ⟨p, v, h, none, ptr r⟩ := by rw [c2, if_neg n2, i1]
        refine ⟨s2.set i ⟨p, v, h, none, none⟩, ?_, a2.trans a1, b2.trans b1, ⟨_, mem_set_self _ _ _⟩, fun j hj => ?_⟩
        · simp [e2, change_eq hi2]
        · rw [mem_set_ne _ hj, c2]
    obtain ⟨s2, e2, a2, b2, ⟨c, i2⟩, c2⟩ := h2
    refine ⟨s2.drop i, ?_, a2, b2, fun j => ?_⟩
    · unfold deleteNode
      simp only [cell_eq hi, Res.bind_ok]
      refine (congrArg (· >>= _) e1).trans ?_
      simp only [cell_eq i1, Res.bind_ok]
      refine (congrArg (· >>= _) e2).trans ?_
      simp only [cell_eq i2, Res.bind_ok]
    · by_cases hj : j = i
      · subst hj; simp [St.drop, ids]
      · simp only [St.drop, c2 j hj, c1 j hj, ids, List.mem_cons, List.mem_append, hj, false_or]
        by_cases hjr : j ∈ ids r <;> by_cases hjl : j ∈ ids l <;> simp [hjr, hjl]

/-! ### Inserting -/

variable [LinearOrder α]

theorem ids_insert (dups : Bool) (fresh : Nat) (x : α) (n : Nat) (par : Ptr) (t : Tree α) :
    (ids (t.insert dups fresh x n par).1).Perm (if (t.insert dups fresh x n par).2.1 then fresh :: ids t else ids t) := by
  induction t generalizing par with
  | nil => simp [Tree.insert, ids]
  | node i p v h l r ihl ihr =>
    have hl : ∀ l', (ids l').Perm (fresh :: ids l) → (ids (Tree.node i p v h l' r)).Perm (fresh :: ids (Tree.node i p v h l r)) := by
      intro l' hp
      simp only [ids]
      rw [List.perm_iff_count] at hp ⊢
      intro a
      have := hp a
      simp only [List.count_cons, List.count_append] at this ⊢
      omega
    have hr : ∀ r', (ids r').Perm (fresh :: ids r) → (ids (Tree.node i p v h l r')).Perm (fresh :: ids (Tree.node i p v h l r)) := by
      intro l' hp
      simp only [ids]
      rw [List.perm_iff_count] at hp ⊢
      intro a
      have := hp a
      simp only [List.count_cons, List.count_append] at this ⊢
      omega
    unfold Tree.insert
    split
    · have := ihl (some i)
      cases hb : (l.insert dups fresh x n (some i)).2.1
      · simp only [hb, Bool.false_eq_true, if_false] at this ⊢
        exact (this.append_right _).cons _
      · simp only [hb, if_true] at this ⊢
        exact (ids_rotateIfNeeded _ _).trans (hl _ this)
    · split
      · have := ihr (some i)
        cases hb : (r.insert dups fresh x n (some i)).2.1
        · simp only [hb, Bool.false_eq_true, if_false] at this ⊢
          exact (this.append_left _).cons _
        · simp only [hb, if_true] at this ⊢
          exact (ids_rotateIfNeeded _ _).trans (hr _ this)
      · split
        · have := ihr (some i)
          cases hb : (r.insert dups fresh x n (some i)).2.1
          · simp only [hb, Bool.false_eq_true, if_false] at this ⊢
            exact (this.append_left _).cons _
          · simp only [hb, if_true] at this ⊢
            exact (ids_rotateIfNeeded _ _).trans (hr _ this)
        · simp

/-- The end of `insert`: rebalance and store the node in the slot. -/
theorem insert_tail {s s1 : St α} {slot : Slot} {S : List Nat} {i : Nat} {p : Ptr} {v : α} {h : Nat} {l r : Tree α} {ref : Ref α}
    {x : α} {q q' : Ptr} (ins : Bool) (n : Nat) (hr : Rep s1.mem (.node i p v h l r)) (hn : (ids (.node i p v h l r)).Nodup)
    (hx : deref s1 ref = .ok x) (he : Eff slot q' S s s1) (hs : Holds s slot q) (hS : ∀ j ∈ ids (.node i p v h l r), j ∈ S)
    (ho : ∀ o ∈ owner slot, o ∉ S) :
    ∃ s', (do
        let (p, s) ← (if ins then rotateIfNeeded s1 i ref else .ok (some i, s1))
        let s ← writeSlot s slot p
        .ok (ins, n, s) : Res (Bool × Nat × St α)) = .ok (ins, n, s') ∧
      Rep s'.mem (if ins then Tree.rotateIfNeeded x (.node i p v h l r) else .node i p v h l r) ∧
      Eff slot (ptr (if ins then Tree.rotateIfNeeded x (.node i p v h l r) else .node i p v h l r)) S s s' ∧
      Keep s1 s' ∧ s'.next = s1.next := by
  have ho' : ∀ o ∈ owner slot, o ∉ ids (Tree.node i p v h l r) := fun o h1 h2 => ho o h1 (hS o h2)
  cases ins with
  | false =>
    refine ⟨setSlot s1 slot (some i), ?_, rep_setSlot ho' hr, he.write hs ho, keep_setSlot _ _ _, next_setSlot _ _ _⟩
    simp [writeSlot_eq (he.holds hs ho)]
  | true =>
    obtain ⟨s2, e2, r2, u2⟩ := rotateIfNeeded_rep hr hn hx
    have he2 := he.upd u2 hS
    refine ⟨setSlot s2 slot (ptr (Tree.rotateIfNeeded x (.node i p v h l r))), ?_, ?_, he2.write hs ho,
      Keep.trans u2.vals (keep_setSlot _ _ _), (next_setSlot _ _ _).trans u2.next⟩
    · simp only [if_true, e2, Res.bind_ok, writeSlot_eq (he2.holds hs ho)]
    · exact rep_setSlot (fun o h1 h2 => ho' o h1 ((ids_rotateIfNeeded _ _).mem_iff.1 h2)) r2

/-- Addresses from `next` on are unused. -/
def Fresh (s : St α) : Prop := ∀ j, s.next ≤ j → s.mem j = none

omit [LinearOrder α] in
/-- A new node under `i`. -/
theorem add_state {s : St α} {i : Nat} {c : Cell α} (hi : s.mem i = some c) (hf : Fresh s) (d e : Cell α) (hv : e.val = c.val) :
    (s.set s.next d).mem i = some c ∧ Keep s ((s.set s.next d).set i e) ∧ i ≠ s.next := by
  have hne : i ≠ s.next := by
    rintro rfl
    rw [hf _ (Nat.le_refl _)] at hi
    cases hi
  refine ⟨by rw [mem_set_ne _ hne, hi], fun j c' hj => ?_, hne⟩
  by_cases hji : j = i
  · subst hji
    rw [hi] at hj
    cases hj
    exact ⟨e, mem_set_self _ _ _, hv⟩
  · have : j ≠ s.next := by
      rintro rfl
      rw [hf _ (Nat.le_refl _)] at hj
      cases hj
    exact ⟨c', by rw [mem_set_ne _ hji, mem_set_ne _ this, hj], rfl⟩

omit [LinearOrder α] in
theorem addLeft_rep {s : St α} {i : Nat} {p : Ptr} {v : α} {h : Nat} {r : Tree α} {ref : Ref α} {x : α}
    (hr : Rep s.mem (.node i p v h .nil r)) (hn : (ids (.node i p v h .nil r)).Nodup) (hf : Fresh s) (hx : deref s ref = .ok x) :
    ∃ s', addLeft s i ref = .ok (true, s') ∧ Rep s'.mem (.node i p v h (.node s.next (some i) x 1 .nil .nil) r) ∧
      Keep s s' ∧ s'.roots = s.roots ∧ s'.next = s.next + 1 ∧ ∀ j, j ≠ s.next → j ≠ i → s'.mem j = s.mem j := by
  obtain ⟨hi, -, hrr⟩ := hr
  obtain ⟨-, n2, -, -, -⟩ := nodup_node.1 hn
  obtain ⟨e1, k1, hne⟩ := add_state hi hf ⟨some i, x, 1, none, none⟩ ⟨p, v, h, some s.next, ptr r⟩ rfl
  refine ⟨({ s.set s.next ⟨some i, x, 1, none, none⟩ with next := s.next + 1 } : St α).set i ⟨p, v, h, some s.next, ptr r⟩,
    ?_, ⟨mem_set_self _ _ _, ⟨?_, trivial, trivial⟩, ?_⟩, k1, rfl, rfl, fun j h1 h2 => ?_⟩
  · simp only [addLeft, cell_eq hi, Res.bind_ok, ptr_nil, if_true, hx, alloc]
    have : ({ s.set s.next ⟨some i, x, 1, none, none⟩ with next := s.next + 1 } : St α).mem i = some ⟨p, v, h, ptr .nil, ptr r⟩ := e1
    rw [change_eq this]
    rfl
  · rw [mem_set_ne _ hne.symm]; exact mem_set_self _ _ _
  · exact hrr.congr fun j hj => by
      rw [mem_set_ne _ (by rintro rfl; exact n2 hj)]
      refine mem_set_ne _ ?_ _
      rintro rfl
      obtain ⟨c, hc⟩ := hrr.some hj
      rw [hf _ (Nat.le_refl _)] at hc
      cases hc
  · rw [mem_set_ne _ h2]; exact mem_set_ne _ h1 _

omit [LinearOrder α] in
theorem addRight_rep {s : St α} {i : Nat} {p : Ptr} {v : α} {h : Nat} {l : Tree α} {ref : Ref α} {x : α}
    (hr : Rep s.mem (.node i p v h l .nil)) (hn : (ids (.node i p v h l .nil)).Nodup) (hf : Fresh s) (hx : deref s ref = .ok x) :
    ∃ s', addRight s i ref = .ok (true, s') ∧ Rep s'.mem (.node i p v h l (.node s.next (some i) x 1 .nil .nil)) ∧
      Keep s s' ∧ s'.roots = s.roots ∧ s'.next = s.next + 1 ∧ ∀ j, j ≠ s.next → j ≠ i → s'.mem j = s.mem j := by
  obtain ⟨hi, hll, -⟩ := hr
  obtain ⟨n1, -, -, -, -⟩ := nodup_node.1 hn
  obtain ⟨e1, k1, hne⟩ := add_state hi hf ⟨some i, x, 1, none, none⟩ ⟨p, v, h, ptr l, some s.next⟩ rfl
  refine ⟨({ s.set s.next ⟨some i, x, 1, none, none⟩ with next := s.next + 1 } : St α).set i ⟨p, v, h, ptr l, some s.next⟩,
    ?_, ⟨mem_set_self _ _ _, ?_, ⟨?_, trivial, trivial⟩⟩, k1, rfl, rfl, fun j h1 h2 => ?_⟩
  · simp only [addRight, cell_eq hi, Res.bind_ok, ptr_nil, if_true, hx, alloc]
    have : ({ s.set s.next ⟨some i, x, 1, none, none⟩ with next := s.next + 1 } : St α).mem i = some ⟨p, v, h, ptr l, ptr .nil⟩ := e1
    rw [change_eq this]
    rfl
  · exact hll.congr fun j hj => by
      rw [mem_set_ne _ (by rintro rfl; exact n1 hj)]
      refine mem_set_ne _ ?_ _
      rintro rfl
      obtain ⟨c, hc⟩ := hll.some hj
      rw [hf _ (Nat.le_refl _)] at hc
      cases hc
  · rw [mem_set_ne _ hne.symm]; exact mem_set_self _ _ _
  · rw [mem_set_ne _ h2]; exact mem_set_ne _ h1 _

omit [LinearOrder α] in
theorem fresh_not_mem {s : St α} (hf : Fresh s) {t : Tree α} (hr : Rep s.mem t) : s.next ∉ ids t := fun hj => by
  obtain ⟨c, hc⟩ := hr.some hj
  rw [hf _ (Nat.le_refl _)] at hc
  cases hc

theorem owner_ne_next {s : St α} (hf : Fresh s) {slot : Slot} {q : Ptr} (hs : Holds s slot q) : ∀ o ∈ owner slot, o ≠ s.next := by
  intro o ho
  rintro rfl
  cases slot with
  | root k => cases ho
  | left i =>
    simp only [owner, List.mem_singleton] at ho
    obtain ⟨c, hc, -⟩ := holds_left.1 hs
    rw [hf i (by omega)] at hc
    cases hc
  | right i =>
    simp only [owner, List.mem_singleton] at ho
    obtain ⟨c, hc, -⟩ := holds_right.1 hs
    rw [hf i (by omega)] at hc
    cases hc

theorem mem_grow {b : Bool} {f j : Nat} {l : List Nat} : j ∈ (if b then f :: l else l) ↔ (b = true ∧ j = f) ∨ j ∈ l := by
  cases b <;> simp

theorem insert_rep (dups : Bool) (k : Nat) (ref : Ref α) (x : α) (n : Nat) (t : Tree α) :
    ∀ (fuel : Nat) (s : St α) (slot : Slot) (par : Ptr), t ≠ .nil → Rep s.mem t → (ids t).Nodup → Fresh s →
      Holds s slot (ptr t) → (∀ o ∈ owner slot, o ∉ ids t) → deref s ref = .ok x → (ids t).length ≤ fuel →
      ∃ s', insert dups k ref fuel s slot n =
          .ok ((t.insert dups s.next x n par).2.1, (t.insert dups s.next x n par).2.2, s') ∧
        Rep s'.mem (t.insert dups s.next x n par).1 ∧
        Eff slot (ptr (t.insert dups s.next x n par).1) (if (t.insert dups s.next x n par).2.1 then s.next :: ids t else ids t) s s' ∧ Keep s s' ∧
        s'.next = if (t.insert dups s.next x n par).2.1 then s.next + 1 else s.next := by
  induction t with
  | nil => intro _ _ _ _ h; exact absurd rfl h
  | node i p v h l r ihl ihr =>
    intro fuel s slot par _ hr hn hf hs ho hx hfu
    obtain ⟨n1, n2, n3, n4, n5⟩ := nodup_node.1 hn
    simp only [ids, List.length_cons, List.length_append] at hfu
    obtain ⟨fuel, rfl⟩ : ∃ f, fuel = f + 1 := ⟨fuel - 1, by omega⟩
    have hfr := fresh_not_mem hf hr
    have ho' : ∀ b : Bool, ∀ o ∈ owner slot, o ∉ (if b then s.next :: ids (.node i p v h l r) else ids (.node i p v h l r)) :=
        fun b o h1 h2 => by
      rcases mem_grow.1 h2 with ⟨-, h2⟩ | h2
      · exact owner_ne_next hf hs o h1 h2
      · exact ho o h1 h2
    -- descend to the left
    have left : ∃ s1, ((match ptr l with
        | some _ => insert dups k ref fuel s (.left i) n
        | none => do
          let (_, s) ← addLeft s i ref
          .ok (true, (n + 1) % W, s)) : Res (Bool × Nat × St α)) =
            .ok ((l.insert dups s.next x n (some i)).2.1, (l.insert dups s.next x n (some i)).2.2, s1) ∧
          Rep s1.mem (.node i p v h (l.insert dups s.next x n (some i)).1 r) ∧ Keep s s1 ∧ s1.roots = s.roots ∧
          s1.next = (if (l.insert dups s.next x n (some i)).2.1 then s.next + 1 else s.next) ∧
          ∀ j, j ∉ (if (l.insert dups s.next x n (some i)).2.1 then s.next :: ids (.node i p v h l r) else ids (.node i p v h l r)) → s1.mem j = s.mem j := by
      cases l with
      | nil =>
        obtain ⟨s1, e1, r1, k1, q1, x1, f1⟩ := addLeft_rep hr hn hf hx
        refine ⟨s1, by simp [e1, Tree.insert], r1, k1, q1, by simp [x1, Tree.insert], fun j hj => ?_⟩
        simp only [Tree.insert, if_true, ids, List.mem_cons, not_or] at hj
        exact f1 j hj.1 hj.2.1
      | node li lp lv lh ll lr =>
        obtain ⟨s1, e1, r1, f1, k1, x1⟩ := ihl fuel s (.left i) (some i) (by simp) hr.2.1 n3 hf
          (holds_left.2 ⟨_, hr.1, rfl⟩) (by simpa [owner] using n1) hx (by omega)
        have hi1 := f1.frame i (by
          simp only [mem_grow, not_or, not_and]
          exact ⟨fun _ e => hfr (by rw [← e]; simp [ids]), n1⟩)
        simp only [setSlot, hr.1, mem_set_self] at hi1
        refine ⟨s1, e1, ⟨hi1, r1, hr.2.2.congr fun j hj => ?_⟩, k1, ?_, x1, fun j hj => ?_⟩
        · have hji : j ≠ i := by rintro rfl; exact n2 hj
          rw [f1.frame j, mem_setSlot (by simpa [owner] using hji)]
          simp only [mem_grow, not_or, not_and]
          exact ⟨fun _ e => hfr (by rw [← e]; simp [ids, hj]), fun hj' => n5 j hj' hj⟩
        · rw [f1.roots]; simp [setSlot, hr.1]
        · have hj1 : j ≠ i := fun e => hj (mem_grow.2 (Or.inr (by simp [ids, e])))
          rw [f1.frame j, mem_setSlot (by simpa [owner] using hj1)]
          intro hj'
          refine hj (mem_grow.2 ((mem_grow.1 hj').imp_right fun h' => ?_))
          rw [show ids (Tree.node i p v h _ _) = i :: (_ ++ _) from rfl]
          simp [h']
    have right : ∃ s1, ((match ptr r with
        | some _ => insert dups k ref fuel s (.right i) n
        | none => do
          let (_, s) ← addRight s i ref
          .ok (true, (n + 1) % W, s)) : Res (Bool × Nat × St α)) =
            .ok ((r.insert dups s.next x n (some i)).2.1, (r.insert dups s.next x n (some i)).2.2, s1) ∧
          Rep s1.mem (.node i p v h l (r.insert dups s.next x n (some i)).1) ∧ Keep s s1 ∧ s1.roots = s.roots ∧
          s1.next = (if (r.insert dups s.next x n (some i)).2.1 then s.next + 1 else s.next) ∧
          ∀ j, j ∉ (if (r.insert dups s.next x n (some i)).2.1 then s.next :: ids (.node i p v h l r) else ids (.node i p v h l r)) → s1.mem j = s.mem j := by
      cases r with
      | nil =>
        obtain ⟨s1, e1, r1, k1, q1, x1, f1⟩ := addRight_rep hr hn hf hx
        refine ⟨s1, by simp [e1, Tree.insert], r1, k1, q1, by simp [x1, Tree.insert], fun j hj => ?_⟩
        simp only [Tree.insert, if_true, ids, List.mem_cons, not_or] at hj
        exact f1 j hj.1 hj.2.1
      | node ri rp rv rh rl rr =>
        obtain ⟨s1, e1, r1, f1, k1, x1⟩ := ihr fuel s (.right i) (some i) (by simp) hr.2.2 n4 hf
          (holds_right.2 ⟨_, hr.1, rfl⟩) (by simpa [owner] using n2) hx (by omega)
        have hi1 := f1.frame i (by
          simp only [mem_grow, not_or, not_and]
          exact ⟨fun _ e => hfr (by rw [← e]; simp [ids]), n2⟩)
        simp only [setSlot, hr.1, mem_set_self] at hi1
        refine ⟨s1, e1, ⟨hi1, hr.2.1.congr fun j hj => ?_, r1⟩, k1, ?_, x1, fun j hj => ?_⟩
        · have hji : j ≠ i := by rintro rfl; exact n1 hj
          rw [f1.frame j, mem_setSlot (by simpa [owner] using hji)]
          simp only [mem_grow, not_or, not_and]
          exact ⟨fun _ e => hfr (by rw [← e]; simp [ids, hj]), fun hj' => n5 j hj hj'⟩
        · rw [f1.roots]; simp [setSlot, hr.1]
        · have hj1 : j ≠ i := fun e => hj (mem_grow.2 (Or.inr (by simp [ids, e])))
          rw [f1.frame j, mem_setSlot (by simpa [owner] using hj1)]
          intro hj'
          refine hj (mem_grow.2 ((mem_grow.1 hj').imp_right fun h' => ?_))
          rw [show ids (Tree.node i p v h _ _) = i :: (_ ++ _) from rfl]
          simp [h']
    have eff : ∀ {s1 : St α} {S : List Nat}, s1.roots = s.roots → (∀ j, j ∉ S → s1.mem j = s.mem j) →
        Eff slot (ptr (.node i p v h l r)) S s s1 := fun h1 h2 =>
      ⟨by rw [setSlot_self hs]; exact h1, fun j hj => by rw [setSlot_self hs]; exact h2 j hj⟩
    have sub : ∀ {t' : Tree α} {b : Bool}, (ids t').Perm (if b then s.next :: ids (.node i p v h l r) else ids (.node i p v h l r)) →
        (ids t').Nodup ∧ ∀ j ∈ ids t', j ∈ (if b then s.next :: ids (.node i p v h l r) else ids (.node i p v h l r)) := by
      intro t' b hp
      cases b with
      | false => exact ⟨hp.nodup_iff.2 hn, fun j hj => hp.mem_iff.1 hj⟩
      | true => exact ⟨hp.nodup_iff.2 (List.nodup_cons.2 ⟨hfr, hn⟩), fun j hj => hp.mem_iff.1 hj⟩
    have permL : (ids (.node i p v h (l.insert dups s.next x n (some i)).1 r)).Perm
        (if (l.insert dups s.next x n (some i)).2.1 then s.next :: ids (.node i p v h l r) else ids (.node i p v h l r)) := by
      have := ids_insert dups s.next x n (some i) l
      cases hb : (l.insert dups s.next x n (some i)).2.1
      · simp only [hb, Bool.false_eq_true, if_false] at this ⊢
        exact (this.append_right _).cons _
      · simp only [hb, if_true] at this ⊢
        exact ((this.append_right _).cons _).trans (List.Perm.swap _ _ _)
    have permR : (ids (.node i p v h l (r.insert dups s.next x n (some i)).1)).Perm
        (if (r.insert dups s.next x n (some i)).2.1 then s.next :: ids (.node i p v h l r) else ids (.node i p v h l r)) := by
      have := ids_insert dups s.next x n (some i) r
      cases hb : (r.insert dups s.next x n (some i)).2.1
      · simp only [hb, Bool.false_eq_true, if_false] at this ⊢
        exact (this.append_left _).cons _
      · simp only [hb, if_true] at this ⊢
        refine ((this.append_left _).cons _).trans ?_
        simp only [ids]
        rw [List.perm_iff_count]
        intro a
        simp only [List.count_cons, List.count_append]
        omega
    have hread : readSlot s slot = .ok (some i) := hs
    have goRight : ¬ x < v → (v < x ∨ dups = true) → ∃ s', insert dups k ref (fuel + 1) s slot n =
          .ok ((r.insert dups s.next x n (some i)).2.1, (r.insert dups s.next x n (some i)).2.2, s') ∧
        Rep s'.mem (if (r.insert dups s.next x n (some i)).2.1 then
          Tree.rotateIfNeeded x (.node i p v h l (r.insert dups s.next x n (some i)).1) else
          .node i p v h l (r.insert dups s.next x n (some i)).1) ∧
        Eff slot (ptr (if (r.insert dups s.next x n (some i)).2.1 then
          Tree.rotateIfNeeded x (.node i p v h l (r.insert dups s.next x n (some i)).1) else
          .node i p v h l (r.insert dups s.next x n (some i)).1)) (if (r.insert dups s.next x n (some i)).2.1 then s.next :: ids (.node i p v h l r) else ids (.node i p v h l r)) s s' ∧ Keep s s' ∧
        s'.next = if (r.insert dups s.next x n (some i)).2.1 then s.next + 1 else s.next := by
      intro c1 c2
      obtain ⟨s1, e1, r1, k1, q1, x1, f1⟩ := right
      obtain ⟨s2, e2, r2, f2, k2, x2⟩ := insert_tail (r.insert dups s.next x n (some i)).2.1 (r.insert dups s.next x n (some i)).2.2
        r1 (sub permR).1 (deref_keep k1 hx) (eff q1 f1) hs (sub permR).2 (ho' _)
      refine ⟨s2, ?_, r2, f2, k1.trans k2, x2.trans x1⟩
      unfold insert
      simp only [hread, Res.bind_ok, cell_eq hr.1, hx, if_neg c1, if_pos c2]
      exact (congrArg (· >>= _) e1).trans e2
    unfold Tree.insert
    by_cases c1 : x < v
    · obtain ⟨s1, e1, r1, k1, q1, x1, f1⟩ := left
      obtain ⟨s2, e2, r2, f2, k2, x2⟩ := insert_tail (l.insert dups s.next x n (some i)).2.1 (l.insert dups s.next x n (some i)).2.2
        r1 (sub permL).1 (deref_keep k1 hx) (eff q1 f1) hs (sub permL).2 (ho' _)
      rw [if_pos c1]
      refine ⟨s2, ?_, r2, f2, k1.trans k2, x2.trans x1⟩
      unfold insert
      simp only [hread, Res.bind_ok, cell_eq hr.1, hx, if_pos c1]
      exact (congrArg (· >>= _) e1).trans e2
    · rw [if_neg c1]
      by_cases c2 : v < x
      · rw [if_pos c2]
        exact goRight c1 (Or.inl c2)
      · rw [if_neg c2]
        cases hd : dups with
        | true =>
          rw [if_pos rfl]
          subst hd
          exact goRight c1 (Or.inr rfl)
        | false =>
          rw [if_neg (by simp)]
          obtain ⟨s2, e2, r2, f2, k2, x2⟩ := insert_tail (x := x) (ref := ref) false n hr hn hx (eff rfl fun _ _ => rfl) hs
            (fun j hj => hj) ho
          refine ⟨s2, ?_, r2, f2, k2, x2⟩
          subst hd
          unfold insert
          have c3 : ¬ (v < x ∨ false = true) := by simpa using c2
          simp only [hread, Res.bind_ok, cell_eq hr.1, hx, if_neg c1, if_neg c3]
          exact e2

end Verif.Mem
