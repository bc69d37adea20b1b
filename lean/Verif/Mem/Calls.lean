import Verif.Mem.World

/-! Each call keeps the invariant of the memory and does what the tree model says. -/

namespace Verif.Mem
open Avl (Tree)
set_option linter.unusedSectionVars false
variable {α : Type}

theorem setRoot_setRoot (s : St α) (k : Nat) (p q : Ptr) : (s.setRoot k p).setRoot k q = s.setRoot k q := by
  simp only [St.setRoot]
  congr 1
  funext j
  by_cases hj : j = k <;> simp [hj]

variable [LinearOrder α]

/-- The subtrees of the tree after inserting consist of old nodes and the new one. -/
theorem callInsert_inv {s : St α} {T : Nat → Tree α} (h : Inv s T) (k : Nat) (o : Obj) {ref : Ref α} {x : α}
    (hx : deref s ref = .ok x) :
    ∃ s', callInsert s k o ref = .ok (((T k).insert o.dups s.next x o.size none).2.1,
        { o with size := ((T k).insert o.dups s.next x o.size none).2.2 }, s') ∧
      Inv s' (upd T k ((T k).insert o.dups s.next x o.size none).1) ∧ Keep s s' ∧
      Clean s T s' (upd T k ((T k).insert o.dups s.next x o.size none).1) := by
  by_cases ht : T k = .nil
  · have hroot : s.roots k = none := by rw [h.root k, ht]; rfl
    have hkeep : Keep s (alloc s none x).2 := fun j c hj => by
      refine ⟨c, ?_, rfl⟩
      rw [mem_alloc_ne _ _ _ (by rintro rfl; rw [h.fresh _ (Nat.le_refl _)] at hj; cases hj), hj]
    have hkeep' : Keep s ((alloc s none x).2.setRoot k (some s.next)) := hkeep
    have hrep : Rep ((alloc s none x).2.setRoot k (some s.next)).mem (.node s.next none x 1 .nil .nil) :=
      ⟨mem_alloc_self _ _ _, trivial, trivial⟩
    obtain ⟨s2, e2, r2, u2⟩ := rotateIfNeeded_rep hrep (by simp [ids]) (deref_keep hkeep' hx)
    rw [Avl.rotateIfNeeded_leaf] at e2 r2
    have hframe : ∀ j, j ∉ ids (T k) → j ∉ ids (.node s.next none x 1 .nil .nil : Tree α) →
        (s2.setRoot k (some s.next)).mem j = s.mem j := fun j _ hj => by
      rw [mem_setRoot, u2.frame j hj]
      exact mem_alloc_ne _ _ _ (by simpa [ids] using hj)
    refine ⟨s2.setRoot k (some s.next), ?_, ?_, ?_, ?_⟩
    · have hins : insert o.dups k ref s.fuel s (.root k) o.size = .ok (true, (o.size + 1) % W, s2.setRoot k (some s.next)) := by
        unfold St.fuel insert
        simp only [readSlot, hroot, Res.bind_ok, addRoot, hx]
        show (match ((alloc s none x).2.setRoot k (some s.next)).roots k with
          | none => .ub
          | some i => do
            let (p, s) ← rotateIfNeeded ((alloc s none x).2.setRoot k (some s.next)) i ref
            let s ← writeSlot s (.root k) p
            .ok (true, (o.size + 1) % W, s) : Res (Bool × Nat × St α)) = _
        have : ((alloc s none x).2.setRoot k (some s.next)).roots k = some s.next := by simp [St.setRoot]
        simp only [this, e2, Res.bind_ok, ptr_node, writeSlot]
      simp only [callInsert, hins, Res.bind_ok, ht, Tree.insert]
    · rw [ht]
      refine h.update k _ r2 (by simp [Tree.insert, ids]) ?_ hframe (fun i hi => ?_) ?_
      · simp only [Tree.insert, ptr_node]
        have e : s2.roots = ((alloc s none x).2.setRoot k (some s.next)).roots := u2.roots
        simp only [St.setRoot, e]
        funext j
        by_cases hj : j = k <;> simp [hj, alloc, St.set]
      · simp [Tree.insert, ids] at hi
        have : s2.next = s.next + 1 := u2.next
        right
        simp only [next_setRoot]
        omega
      · have : s2.next = s.next + 1 := u2.next
        simp only [next_setRoot]
        omega
    · exact hkeep'.trans u2.vals
    · rw [ht]
      refine Clean.update h k _ hframe (fun i hi => ?_) (by rw [ht]; simp [ids])
      simp [Tree.insert, ids] at hi
      omega
  · obtain ⟨s', e1, r1, f1, k1, x1⟩ := insert_rep o.dups k ref x o.size (T k) s.fuel s (.root k) none ht (h.rep k) (h.nodup k)
      h.fresh (holds_root.2 (h.root k)) (by simp [owner]) hx (by have := h.length k; unfold St.fuel; omega)
    have hp := ids_insert o.dups s.next x o.size none (T k)
    have hfr := fresh_not_mem h.fresh (h.rep k)
    generalize (T k).insert o.dups s.next x o.size none = res at *
    obtain ⟨t', ins, n'⟩ := res
    simp only at *
    have hframe : ∀ j, j ∉ ids (T k) → j ∉ ids t' → s'.mem j = s.mem j := fun j h1 h2 => by
      rw [f1.frame j fun hj => h2 (hp.mem_iff.2 hj)]; rfl
    refine ⟨s', by simp [callInsert, e1], h.update k t' r1 ?_ f1.roots hframe (fun i hi => ?_) ?_, k1, Clean.update h k t' hframe (fun i hi => ?_) fun j h1 h2 => ?_⟩
    · refine hp.nodup_iff.2 ?_
      cases ins
      · exact h.nodup k
      · exact List.nodup_cons.2 ⟨hfr, h.nodup k⟩
    · rcases mem_grow.1 (hp.mem_iff.1 hi) with ⟨rfl, h2⟩ | h2
      · right
        simp only [if_true] at x1
        omega
      · exact Or.inl h2
    · rw [x1]; split <;> omega
    · rcases mem_grow.1 (hp.mem_iff.1 hi) with ⟨-, h2⟩ | h2
      · exact Or.inr (by omega)
      · exact Or.inl h2
    · exact absurd (hp.mem_iff.2 (mem_grow.2 (Or.inr h1))) h2

theorem callRemove_inv {s : St α} {T : Nat → Tree α} (h : Inv s T) (k : Nat) (o : Obj) {ref : Ref α} {x : α}
    (hx : T k ≠ .nil → deref s ref = .ok x) :
    ∃ s', callRemove s k o ref = .ok (((T k).remove o.size x).2.1, { o with size := ((T k).remove o.size x).2.2 }, s') ∧
      Inv s' (upd T k ((T k).remove o.size x).1) ∧ s'.next = s.next ∧
      (∀ j ∈ ids (T k), j ∉ ids ((T k).remove o.size x).1 → s'.mem j = none) ∧
      Clean s T s' (upd T k ((T k).remove o.size x).1) := by
  obtain ⟨s', e1, r1, f1, x1, d1⟩ := remove_rep (T k) s.fuel s (.root k) ref x o.size (h.rep k) (h.nodup k)
    (holds_root.2 (h.root k)) (by simp [owner]) hx (by have := h.length k; unfold St.fuel; omega)
  have hsub := ids_remove o.size x (T k)
  have hframe : ∀ j, j ∉ ids (T k) → j ∉ ids ((T k).remove o.size x).1 → s'.mem j = s.mem j := fun j h1 _ => by
    rw [f1.frame j h1]; rfl
  refine ⟨s', by simp [callRemove, e1], h.update k _ r1 ?_ f1.roots hframe (fun i hi => Or.inl (hsub.subset hi)) (by omega), x1, d1,
    Clean.update h k _ hframe (fun i hi => Or.inl (hsub.subset hi)) d1⟩
  obtain ⟨l', hp, hl'⟩ := hsub
  exact hp.nodup_iff.1 (hl'.nodup (h.nodup k))

/-! ### `remove_all` -/

theorem sz_rotateOnRemove (t : Tree α) : sz t.rotateOnRemove = sz t := by
  rw [← ids_length, ← ids_length, (ids_rotateOnRemove t).length_eq]

theorem sz_remove (n : Nat) (t : Tree α) : ∀ x : α, (t.remove n x).2.1 = true → sz (t.remove n x).1 + 1 = sz t := by
  induction t with
  | nil => intro x h; cases h
  | node i p v h l r ihl ihr =>
    intro x
    unfold Tree.remove
    split
    · intro hb
      have := ihl x hb
      simp only [sz_rotateOnRemove, sz]; omega
    · split
      · intro hb
        have := ihr x hb
        simp only [sz_rotateOnRemove, sz]; omega
      · split
        · intro _; rfl
        · intro _; simp [sz_rotateOnRemove, sz, Tree.setParent]
        · intro _; simp [sz_rotateOnRemove, sz, Tree.setParent]
        · split
          · intro hb; cases hb
          · rename_i m _
            intro hb
            have := ihr m hb
            simp only [sz_rotateOnRemove, sz] at this ⊢; omega

theorem nodes_eq (t : Tree α) : Avl.Avl.nodes t = sz t := by
  induction t with
  | nil => rfl
  | node i p v h l r ihl ihr => simp [Avl.Avl.nodes, sz, ihl, ihr]

theorem removeAllFuel_ok (x : α) : ∀ (fuel : Nat) (a : Avl.Avl α) (cnt : Nat), sz a.root < fuel →
    ∃ r, Avl.Avl.removeAllFuel fuel a x cnt = some r := by
  intro fuel
  induction fuel with
  | zero => intro a cnt h; omega
  | succ fuel ih =>
    intro a cnt h
    unfold Avl.Avl.removeAllFuel
    cases hb : (a.root.remove a.size x).2.1 with
    | false =>
      have : a.remove x = ((a.remove x).1, false) := by simp [Avl.Avl.remove, hb]
      rw [this]
      exact ⟨_, rfl⟩
    | true =>
      have : a.remove x = ((a.remove x).1, true) := by simp [Avl.Avl.remove, hb]
      rw [this]
      have hs := sz_remove a.size a.root x hb
      exact ih _ _ (by simp only [Avl.Avl.remove]; omega)

theorem callRemoveAll_inv (k : Nat) (x : α) : ∀ (fuel fuel' : Nat) (s : St α) (T : Nat → Tree α) (o : Obj) (a a' : Avl.Avl α)
    (cnt cnt' : Nat), Inv s T → a.root = T k → a.dups = o.dups → a.size = o.size → fuel ≤ fuel' →
    Avl.Avl.removeAllFuel fuel a x cnt = some (a', cnt') →
    ∃ s', callRemoveAll fuel' s k o (.val x) cnt = .ok (cnt', ⟨a'.dups, a'.size⟩, s') ∧ Inv s' (upd T k a'.root) ∧
      Clean s T s' (upd T k a'.root) := by
  intro fuel
  induction fuel with
  | zero => intro _ _ _ _ _ _ _ _ _ _ _ _ _ h; simp [Avl.Avl.removeAllFuel] at h
  | succ fuel ih =>
    intro fuel' s T o a a' cnt cnt' h h1 h2 h3 hf hr
    obtain ⟨fuel', rfl⟩ : ∃ f, fuel' = f + 1 := ⟨fuel' - 1, by omega⟩
    obtain ⟨s1, e1, i1, -, -, l1⟩ := callRemove_inv h k o (ref := .val x) (x := x) fun _ => rfl
    unfold Avl.Avl.removeAllFuel at hr
    rw [← h1, ← h3] at e1 i1 l1
    cases hb : (a.root.remove a.size x).2.1 with
    | false =>
      have : a.remove x = ((a.remove x).1, false) := by simp [Avl.Avl.remove, hb]
      rw [this] at hr
      simp only [Option.some.injEq, Prod.mk.injEq] at hr
      obtain ⟨rfl, rfl⟩ := hr
      refine ⟨s1, ?_, i1, l1⟩
      simp [callRemoveAll, e1, hb, Avl.Avl.remove, h2]
    | true =>
      have : a.remove x = ((a.remove x).1, true) := by simp [Avl.Avl.remove, hb]
      rw [this] at hr
      simp only at hr
      obtain ⟨s2, e2, i2, l2⟩ := ih fuel' s1 _ ⟨o.dups, (a.root.remove a.size x).2.2⟩ _ _ _ _ i1
        (by simp [Avl.Avl.remove]) (by simp [Avl.Avl.remove, h2]) (by simp [Avl.Avl.remove]) (by omega) hr
      have e : upd (upd T k (a.root.remove a.size x).1) k a'.root = upd T k a'.root := by
        funext j; by_cases hj : j = k <;> simp [upd, hj]
      rw [e] at i2 l2
      refine ⟨s2, ?_, i2, l1.trans l2⟩
      simp [callRemoveAll, e1, hb, e2]

/-! ### One call -/

/-- Tree object `k` as the tree model sees it. -/
def view (s : St α) (T : Nat → Tree α) (k : Nat) (o : Obj) : Avl.Avl α := ⟨T k, o.dups, o.size, s.next⟩

omit [LinearOrder α] in
theorem upd_same (T : Nat → Tree α) (k : Nat) : upd T k (T k) = T := by
  funext j; by_cases hj : j = k <;> simp [upd, hj]

theorem step_inv {s : St α} {T : Nat → Tree α} (h : Inv s T) (k : Nat) (o : Obj) (op : Avl.Op α) :
    ∃ a' out s', Avl.step (view s T k o) op = .ok (a', out) ∧ step s k o op = .ok (out, ⟨a'.dups, a'.size⟩, s') ∧
      Inv s' (upd T k a'.root) ∧ Clean s T s' (upd T k a'.root) := by
  cases op with
  | insert x =>
    obtain ⟨s', e1, i1, -, l1⟩ := callInsert_inv h k o (ref := .val x) (x := x) rfl
    exact ⟨_, _, s', rfl, by simp only [step, e1, Res.bind_ok]; rfl, i1, l1⟩
  | remove x =>
    obtain ⟨s', e1, i1, -, -, l1⟩ := callRemove_inv h k o (ref := .val x) (x := x) fun _ => rfl
    exact ⟨_, _, s', rfl, by simp only [step, e1, Res.bind_ok]; rfl, i1, l1⟩
  | removeAll x =>
    obtain ⟨⟨a', c⟩, hr⟩ := removeAllFuel_ok x (Avl.Avl.nodes (T k) + 1) (view s T k o) 0 (by rw [nodes_eq]; exact Nat.lt_succ_self _)
    obtain ⟨s', e1, i1, l1⟩ := callRemoveAll_inv k x _ s.fuel s T o (view s T k o) a' 0 c h rfl rfl rfl
      (by rw [nodes_eq, ← ids_length]; have := h.length k; unfold St.fuel; omega) hr
    refine ⟨a', .count c, s', ?_, by simp only [step, e1, Res.bind_ok], i1, l1⟩
    simp only [Avl.step, Avl.Avl.removeAll, view] at hr ⊢
    simp only [hr, Res.bind_ok]
  | clear =>
    obtain ⟨s', e1, i1, -, -, l1⟩ := deleteRoot_inv h k
    exact ⟨_, _, s', rfl, by simp only [step, callClear, e1, Res.bind_ok]; rfl, i1, l1⟩
  | enableDuplicates => exact ⟨_, _, s, rfl, rfl, by simpa [view, upd_same] using h, by simpa [view, upd_same] using Clean.refl s T⟩
  | disableDuplicates => exact ⟨_, _, s, rfl, rfl, by simpa [view, upd_same] using h, by simpa [view, upd_same] using Clean.refl s T⟩

theorem contains_rep (s : St α) (x : α) {ref : Ref α} (hx : deref s ref = .ok x) (t : Tree α) : ∀ (fuel i : Nat), ptr t = some i →
    Rep s.mem t → sz t ≤ fuel → contains fuel s i ref = .ok (t.contains x) := by
  induction t with
  | nil => intro _ _ h; cases h
  | node i p v h l r ihl ihr =>
    rintro fuel _ ⟨rfl⟩ ⟨hi, hl, hr⟩ hf
    simp only [sz] at hf
    obtain ⟨fuel, rfl⟩ : ∃ f, fuel = f + 1 := ⟨fuel - 1, by omega⟩
    simp only [contains, cell_eq hi, hx, Res.bind_ok, Tree.contains]
    split
    · cases l with
      | nil => rfl
      | node li lp lv lh ll lr => exact ihl fuel li rfl hl (by omega)
    · split
      · cases r with
        | nil => rfl
        | node ri rp rv rh rl rr => exact ihr fuel ri rfl hr (by omega)
      · rfl

theorem callContains_inv {s : St α} {T : Nat → Tree α} (h : Inv s T) (k : Nat) {ref : Ref α} {x : α} (hx : deref s ref = .ok x) :
    callContains s k ref = .ok ((T k).contains x) := by
  unfold callContains
  rw [h.root k]
  cases hp : ptr (T k) with
  | none => rw [ptr_none.1 hp]; rfl
  | some r => exact contains_rep s x hx (T k) _ r hp (h.rep k) (by rw [← ids_length]; have := h.length k; unfold St.fuel; omega)

/-! ### Assignment -/

omit [LinearOrder α] in
theorem copyTree_inv (dflt : α) {s : St α} {T : Nat → Tree α} (h : Inv s T) (k j : Nat) :
    ∃ s' t', copyTree dflt s k j = .ok s' ∧ Inv s' (upd T k t') ∧
      ((k ≠ j → (T j = .nil → t' = T k) ∧ (T j ≠ .nil → t' = ((T j).copy none s.next).1)) ∧
        (k = j → t' = T k ∨ t' = .node s.next none dflt 1 .nil .nil)) ∧
      ((T k = .nil ∨ T j = .nil → NoLeak s T → NoLeak s' (upd T k t')) ∧ (∀ i, Lost s T i → Lost s' (upd T k t') i) ∧
        (T k ≠ .nil → T j ≠ .nil → ∃ i, Lost s' (upd T k t') i)) := by
  cases hp : ptr (T j) with
  | none =>
    refine ⟨s, T k, by simp [copyTree, h.root j, hp], by rwa [upd_same], ⟨fun _ => ⟨fun _ => rfl, fun hc => absurd (ptr_none.1 hp) hc⟩, fun _ => .inl rfl⟩,
      ?_, fun i hi => by rwa [upd_same], fun _ hc => absurd (ptr_none.1 hp) hc⟩
    rw [upd_same]
    exact fun _ => id
  | some src =>
    have hnil : T j ≠ .nil := by intro e; rw [e] at hp; cases hp
    generalize hs1 : (alloc s none dflt).2.setRoot k (some s.next) = s1
    have m1 : ∀ i, i ≠ s.next → s1.mem i = s.mem i := fun i hi => by rw [← hs1]; exact mem_alloc_ne _ _ _ hi
    have m2 : s1.mem s.next = some ⟨none, dflt, 1, none, none⟩ := by rw [← hs1]; exact mem_alloc_self _ _ _
    have x1 : s1.next = s.next + 1 := by rw [← hs1]; rfl
    have q1 : s1.roots = (s.setRoot k (some s.next)).roots := by rw [← hs1]; rfl
    have f1 : Fresh s1 := fun i hi => by rw [m1 i (by omega), h.fresh i (by omega)]
    have lost : ∀ {s' : St α} {t : Tree α}, (∀ i ∈ ids (T k), s'.mem i = s.mem i) → (∀ i ∈ ids t, s.next ≤ i) → T k ≠ .nil →
        ∃ i, Lost s' (upd T k t) i := by
      intro s' t hm ht hk
      cases hT : T k with
      | nil => exact absurd hT hk
      | node i p v hh l r =>
        have hi : i ∈ ids (T k) := by rw [hT]; simp [ids]
        obtain ⟨c, hc⟩ := (h.rep k).some hi
        refine ⟨i, ⟨c, by rw [hm i hi, hc]⟩, fun m => ?_⟩
        by_cases hmk : m = k
        · subst hmk
          rw [upd_self]
          intro hit
          have := ht i hit
          have := h.lt hi
          omega
        · rw [upd_ne _ hmk]
          exact h.disj k m i (Ne.symm hmk) hi
    by_cases hkj : k = j
    · subst hkj
      have hroot : s1.roots k = some s.next := by rw [q1]; simp [St.setRoot]
      have ecopy : copyNode dflt s.fuel s1 s.next s.next = .ok s1 := by
        unfold St.fuel copyNode
        simp only [clearNode_leaf _ m2, cell_eq m2, Res.bind_ok, change_eq m2]
        congr 1
        simp only [St.set]
        cases s1
        simp only [St.mk.injEq, and_true]
        funext i
        by_cases hi : i = s.next
        · subst hi; simpa using m2.symm
        · simp [hi]
      refine ⟨s1, .node s.next none dflt 1 .nil .nil, ?_, ?_, ⟨fun hc => absurd rfl hc, fun _ => .inr rfl⟩,
        fun hc => absurd (hc.elim id id) hnil, Lost.update h k _ (fun i _ hi => m1 i (by simpa [ids] using hi)) (by simp [ids]), fun _ => ?_⟩
      · simp only [copyTree, h.root k, hp]
        show (match ((alloc s none dflt).2.setRoot k (some s.next)).roots k with
          | none => .exc .invalidNode
          | some src => copyNode dflt s.fuel ((alloc s none dflt).2.setRoot k (some s.next)) s.next src : Res (St α)) = _
        rw [hs1]
        simp only [hroot, ecopy]
      · refine h.update k _ ⟨m2, trivial, trivial⟩ (by simp [ids]) q1 (fun i _ hi => m1 i (by simpa [ids] using hi)) (fun i hi => ?_)
          (by omega)
        simp [ids] at hi
        omega
      · exact lost (fun i hi => m1 i (by have := h.lt hi; omega)) (by simp [ids])
    · cases ht : T j with
      | nil => exact absurd ht hnil
      | node si sp sv sh l r =>
        have hrep : Rep s.mem (.node si sp sv sh l r) := by rw [← ht]; exact h.rep j
        have hlt : ∀ i ∈ ids (.node si sp sv sh l r), i < s.next := fun i hi => h.lt (k := j) (by rw [ht]; exact hi)
        have hsz : sz (.node si sp sv sh l r) ≤ s.fuel := by
          have := h.length j
          rw [ht, ids_length] at this
          unfold St.fuel; omega
        obtain ⟨s2, e2, r2, q2, n2, g2, f2⟩ := copyNode_rep dflt (.node si sp sv sh l r) s.fuel s1 s.next si sp sv sh l r none dflt 1
          rfl m2 (fun hi => by have := hlt _ hi; omega)
          (hrep.congr fun i hi => m1 i (by have := hlt _ hi; omega)) f1 hsz
        rw [x1] at r2 n2 g2
        have hcopy : ((Tree.node si sp sv sh l r).copy none s.next).1 =
            .node s.next none sv 1 (l.copy (some s.next) (s.next + 1)).1 (r.copy (some s.next) (s.next + 1 + sz l)).1 :=
          copy_node_eq _ _ _ _ _ _ _ _
        rw [← hcopy] at r2
        have hids := copy_ids (.node si sp sv sh l r) none s.next
        have hroot : s1.roots j = some si := by
          rw [q1]
          simp only [St.setRoot, if_neg (Ne.symm hkj), h.root j, ht, ptr_node]
        have hframe : ∀ i, i ∉ ids (T k) → i ∉ ids ((Tree.node si sp sv sh l r).copy none s.next).1 → s2.mem i = s.mem i := by
          intro i _ hi
          rw [hids] at hi
          simp only [List.mem_range'_1, sz] at hi
          by_cases hlt' : i < s.next
          · rw [g2 i (by omega) (by omega), m1 i (by omega)]
          · rw [f2 i (by omega), h.fresh i (by omega)]
        refine ⟨s2, ((Tree.node si sp sv sh l r).copy none s.next).1, ?_, ?_,
          ⟨fun _ => ⟨(fun e => by cases e), fun _ => rfl⟩, fun e => absurd e hkj⟩, fun hk hl => ?_, Lost.update h k _ hframe (fun i hi => ?_), fun hk _ => lost (fun i hi => ?_) (fun i hi => ?_) hk⟩
        · have : src = si := by rw [ht] at hp; simpa using hp.symm
          subst this
          simp only [copyTree, h.root j, hp]
          show (match ((alloc s none dflt).2.setRoot k (some s.next)).roots j with
            | none => .exc .invalidNode
            | some src => copyNode dflt s.fuel ((alloc s none dflt).2.setRoot k (some s.next)) s.next src : Res (St α)) = _
          rw [hs1]
          simp only [hroot, e2]
        · refine h.update k _ r2 (by rw [hids]; exact List.nodup_range') ?_ hframe (fun i hi => ?_) (by omega)
          · rw [q2, q1, hcopy]; rfl
          · rw [hids] at hi
            simp only [List.mem_range'_1, sz] at hi
            omega
        · exact hl.update k _ hframe (by rw [hk.resolve_right (by simp)]; simp [ids])
        · rw [hids] at hi
          simp only [List.mem_range'_1] at hi
          exact .inr hi.1
        · have := h.lt hi
          rw [g2 i (by omega) (by omega), m1 i (by omega)]
        · rw [hids] at hi
          simp only [List.mem_range'_1] at hi
          exact hi.1

omit [LinearOrder α] in
theorem moveTree_inv {s : St α} {T : Nat → Tree α} (h : Inv s T) (k j : Nat) :
    Inv (moveTree s k j) (upd (upd T k (T j)) j .nil) ∧
      (T k = .nil → NoLeak s T → NoLeak (moveTree s k j) (upd (upd T k (T j)) j .nil)) ∧
      (∀ i, Lost s T i → Lost (moveTree s k j) (upd (upd T k (T j)) j .nil) i) ∧
      (T k ≠ .nil → ∃ i, Lost (moveTree s k j) (upd (upd T k (T j)) j .nil) i) := by
  have hT : ∀ i, upd (upd T k (T j)) j .nil i = if i = j then .nil else if i = k then T j else T i := fun i => by
    simp only [upd]
  refine ⟨⟨fun i => ?_, fun i => ?_, fun i => ?_, fun a b i hab => ?_, h.fresh⟩, fun hk hl i c hi => ?_, fun i ⟨hc, hi⟩ => ⟨hc, fun a => ?_⟩, fun hk => ?_⟩
  · rw [hT]
    split
    · trivial
    · split
      · exact h.rep j
      · exact h.rep i
  · rw [hT]
    simp only [moveTree, St.setRoot]
    split
    · rfl
    · split
      · exact h.root j
      · exact h.root i
  · rw [hT]
    split
    · simp [ids]
    · split
      · exact h.nodup j
      · exact h.nodup i
  · rw [hT, hT]
    split
    · intro hi; cases hi
    · rename_i ha
      split
      · rename_i ha'
        split
        · intro _ hi; cases hi
        · rename_i hb
          split
          · rename_i hb'; exact absurd (ha'.trans hb'.symm) hab
          · intro hi; exact h.disj j b i (fun e => hb e.symm) hi
      · split
        · intro _ hi; cases hi
        · split
          · intro hi; exact h.disj a j i ha hi
          · intro hi; exact h.disj a b i hab hi
  · obtain ⟨a, ha⟩ := hl i c hi
    have hak : a ≠ k := by rintro rfl; rw [hk] at ha; cases ha
    by_cases haj : a = j
    · exact ⟨k, by rw [hT, if_neg (by rw [← haj]; exact Ne.symm hak), if_pos rfl, ← haj]; exact ha⟩
    · refine ⟨a, ?_⟩
      rw [hT, if_neg haj, if_neg hak]; exact ha
  · rw [hT]
    split
    · simp [ids]
    · split
      · exact hi j
      · exact hi a
  · cases hk' : T k with
    | nil => exact absurd hk' hk
    | node i p v hh l r =>
      have hi : i ∈ ids (T k) := by rw [hk']; simp [ids]
      obtain ⟨c, hc⟩ := (h.rep k).some hi
      refine ⟨i, ⟨c, hc⟩, fun a => ?_⟩
      rw [hT]
      split
      · simp [ids]
      · rename_i haj
        split
        · rename_i hak
          exact h.disj k j i (by rw [← hak]; exact haj) hi
        · rename_i hak
          exact h.disj k a i (Ne.symm hak) hi

end Verif.Mem
