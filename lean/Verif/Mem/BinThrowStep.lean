import Verif.Mem.BinThrow

/-! Statements over plain binary trees that throw keep the invariant of the memory, and leave behind what the specification says. -/

namespace Verif.Mem
open Avl (Tree)
open Avl.Spec (ParentsExact)
open Spec
variable {α : Type}

structure BCutOk (dflt : α) (s : St α) (T : Nat → Tree α) (op : BOp α) (f : Fault) (s' : St α) (T' : Nat → Tree α) : Prop where
  run : bcut dflt s op f = .ok (some s')
  inv : Inv s' T'
  spec : BFaithful s op → bcutSpec dflt (fun k => erase (T k)) op f = some fun k => erase (T' k)
  noLeak : BTidyCut s op f → NoLeak s T → NoLeak s' T'
  par : BLocalCut dflt s op f → (∀ k, ParentsExact none (T k)) → ∀ k, ParentsExact none (T' k)
  lost : ∀ i, Lost s T i → Lost s' T' i
  new : ¬ BTidyCut s op f → ∃ i, Lost s' T' i

/-- The statement throws, or it does not come to the point. -/
def CutGood (dflt : α) (s : St α) (T : Nat → Tree α) (op : BOp α) (f : Fault) : Prop :=
  (∃ s' T', BCutOk dflt s T op f s' T') ∨ bcut dflt s op f = .ok none ∧ (BFaithful s op → bcutSpec dflt (fun k => erase (T k)) op f = none)

theorem bonCut_rep {s : St α} {T : Nat → Tree α} (h : Inv s T) (k : Nat) (path : List Bool) (f : Nat → Res (Option (St α))) :
    bonCut s k path f = match ptr (subAt (T k) path) with
      | some i => f i
      | none => .ok none := by
  unfold bonCut
  rw [h.root k, resolve_rep path (h.rep k)]
  cases ptr (subAt (T k) path) <;> rfl

theorem cut_same {dflt : α} {s : St α} {T : Nat → Tree α} (h : Inv s T) {op : BOp α} {f : Fault} (h1 : bcut dflt s op f = .ok (some s))
    (h2 : bcutSpec dflt (fun k => erase (T k)) op f = some fun k => erase (T k)) (ht : BTidyCut s op f) : CutGood dflt s T op f :=
  .inl ⟨s, T, h1, h, fun _ => h2, fun _ => id, fun _ => id, fun _ => id, fun hn => absurd ht hn⟩

/-- A statement about one node. -/
theorem cut_local {dflt : α} {s s' : St α} {T : Nat → Tree α} (h : Inv s T) {op : BOp α} {f : Fault} {k : Nat} {path : List Bool} {t u : Tree α}
    (ht : subAt (T k) path = t) (hne : t ≠ .nil) (hl : Loc0 s s' t u) (h1 : bcut dflt s op f = .ok (some s'))
    (h2 : BFaithful s op → bcutSpec dflt (fun k => erase (T k)) op f = some (setTree (fun k => erase (T k)) k ((erase (T k)).put path (erase u))))
    (hp : BLocalCut dflt s op f → ∀ q, ParentsExact q t → ParentsExact q u) (hty : BTidyCut s op f) : CutGood dflt s T op f := by
  refine .inl ⟨s', _, h1, hl.inv h ht, fun hf => ?_, fun _ hn => hl.noLeak hn ht hne, fun hc hpar => ?_, hl.lost h ht, fun hn => absurd hty hn⟩
  · rw [h2 hf, erase_upd, erase_putAt]
  · exact Loc.parents hpar ht ⟨hl, hp hc⟩

/-! ### Changing a value -/

/-- The value at an address. -/
def setV (i : Nat) (v : α) : Tree α → Tree α
  | .nil => .nil
  | .node j p w h l r => .node j p (if j = i then v else w) h (setV i v l) (setV i v r)

@[simp] theorem ids_setV (i : Nat) (v : α) (t : Tree α) : ids (setV i v t) = ids t := by
  induction t with
  | nil => rfl
  | node j p w h l r ihl ihr => simp only [setV, ids, ihl, ihr]

@[simp] theorem ptr_setV (i : Nat) (v : α) (t : Tree α) : ptr (setV i v t) = ptr t := by cases t <;> rfl

theorem parents_setV (i : Nat) (v : α) (t : Tree α) : ∀ q, ParentsExact q t → ParentsExact q (setV i v t) := by
  induction t with
  | nil => intro _ _; trivial
  | node j p w h l r ihl ihr => intro q hq; exact ⟨hq.1, ihl _ hq.2.1, ihr _ hq.2.2⟩

theorem setV_not (i : Nat) (v : α) (t : Tree α) (h : i ∉ ids t) : setV i v t = t := by
  induction t with
  | nil => rfl
  | node j p w hh l r ihl ihr =>
    simp only [ids, List.mem_cons, List.mem_append, not_or] at h
    simp only [setV, if_neg (Ne.symm h.1), ihl h.2.1, ihr h.2.2]

theorem setV_at (v : α) (path : List Bool) : ∀ {t : Tree α} {i : Nat} {p : Ptr} {w : α} {h : Nat} {l r : Tree α}, (ids t).Nodup →
    subAt t path = .node i p w h l r → setV i v t = putAt t path (.node i p v h l r) := by
  induction path with
  | nil =>
    intro t i p w h l r hn ht
    have : t = .node i p w h l r := by rw [← ht]; cases t <;> rfl
    subst this
    obtain ⟨n1, n2, -⟩ := nodup_node.1 hn
    simp only [setV, if_true, setV_not _ _ _ n1, setV_not _ _ _ n2, putAt]
  | cons b path ih =>
    intro t i p w h l r hn ht
    cases t with
    | nil => cases ht
    | node ti tp tv th tl tr =>
      obtain ⟨n1, n2, n3, n4, n5⟩ := nodup_node.1 hn
      cases b with
      | true =>
        have ht : subAt tr path = .node i p w h l r := ht
        have hi : i ∈ ids tr := mem_subAt path (by rw [ht]; simp [ids])
        have hne : ti ≠ i := by rintro rfl; exact n2 hi
        simp only [setV, putAt, ih n4 ht, if_neg hne, setV_not _ _ _ fun hc => n5 i hc hi]
      | false =>
        have ht : subAt tl path = .node i p w h l r := ht
        have hi : i ∈ ids tl := mem_subAt path (by rw [ht]; simp [ids])
        have hne : ti ≠ i := by rintro rfl; exact n1 hi
        simp only [setV, putAt, ih n3 ht, if_neg hne, setV_not _ _ _ fun hc => n5 i hi hc]

theorem rep_setV {s : St α} {i : Nat} {c : Cell α} (hc : s.mem i = some c) (v : α) (t : Tree α) (h : Rep s.mem t) :
    Rep (s.set i { c with val := v }).mem (setV i v t) := by
  induction t with
  | nil => trivial
  | node j p w hh l r ihl ihr =>
    refine ⟨?_, ihl h.2.1, ihr h.2.2⟩
    simp only [ptr_setV]
    by_cases hj : j = i
    · subst hj
      have := h.1
      rw [hc] at this
      cases this
      rw [mem_set_self, if_pos rfl]
    · rw [mem_set_ne _ hj, h.1, if_neg hj]

theorem setV_inv {s : St α} {T : Nat → Tree α} (h : Inv s T) {i : Nat} {c : Cell α} (hc : s.mem i = some c) (v : α) :
    Inv (s.set i { c with val := v }) fun k => setV i v (T k) := by
  refine ⟨fun k => rep_setV hc v _ (h.rep k), fun k => by rw [ptr_setV]; exact h.root k, fun k => by rw [ids_setV]; exact h.nodup k,
    fun k j a hkj ha => by rw [ids_setV] at ha ⊢; exact h.disj k j a hkj ha, fun j hj => ?_⟩
  have hj' : s.mem j = none := h.fresh j hj
  rw [mem_set_ne _ (by rintro rfl; rw [hc] at hj'; cases hj'), hj']

/-! ### The move -/

theorem change_ok {s s' : St α} {i : Nat} {f : Cell α → Cell α} (h : change s i f = .ok s') : ∃ c, s.mem i = some c ∧ s' = s.set i (f c) := by
  cases hi : s.mem i with
  | none => simp [change, hi] at h
  | some c =>
    rw [change_eq hi] at h
    cases h
    exact ⟨c, rfl, rfl⟩

/-- The values stay. -/
def KeepV (s s' : St α) : Prop := ∀ j c, s.mem j = some c → ∃ c', s'.mem j = some c' ∧ c'.val = c.val

theorem keepV_trans {s s1 s2 : St α} (h1 : KeepV s s1) (h2 : KeepV s1 s2) : KeepV s s2 := fun j c hj => by
  obtain ⟨c1, a, b⟩ := h1 j c hj
  obtain ⟨c2, d, e⟩ := h2 j c1 a
  exact ⟨c2, d, e.trans b⟩

theorem change_keepV {s s' : St α} {i : Nat} {f : Cell α → Cell α} (h : change s i f = .ok s') (hf : ∀ c, (f c).val = c.val) : KeepV s s' := by
  obtain ⟨c, hc, rfl⟩ := change_ok h
  intro j d hj
  by_cases hji : j = i
  · subst hji
    rw [hc] at hj
    cases hj
    exact ⟨_, mem_set_self _ _ _, hf _⟩
  · exact ⟨d, by rw [mem_set_ne _ hji, hj], rfl⟩

theorem setPar_keepV {s s' : St α} {p : Ptr} {q : Ptr} (h : ((match p with
      | some l => change s l fun c => { c with par := q }
      | none => .ok s) : Res (St α)) = .ok s') : KeepV s s' := by
  cases p with
  | none => cases h; exact fun j c hj => ⟨c, hj, rfl⟩
  | some l => exact change_keepV h fun _ => rfl

/-- The move assignment is `moveNodeT` and the assignment of the value. -/
theorem moveNode_split {fuel : Nat} {s s' : St α} {dst src : Nat} (h : moveNode fuel s dst src = .ok s') :
    ∃ s1 s2 d w, clearNode fuel s dst = .ok s1 ∧ KeepV s1 s2 ∧ moveNodeT fuel s dst src = .ok s2 ∧ s2.mem dst = some d ∧
      s' = s2.set dst { d with val := w } := by
  simp only [moveNode, Res.bind_eq_ok] at h
  obtain ⟨s1, h1, c1, hc1, s2, h2, c2, hc2, s3, h3, s4, h4, s5, h5, c3, hc3, s6, h6, c4, hc4, s7, h7, c5, hc5, h8⟩ := h
  obtain ⟨d, hd, rfl⟩ := change_ok h8
  refine ⟨s1, s7, d, _, h1, ?_, ?_, hd, rfl⟩
  · exact keepV_trans (change_keepV h2 fun _ => rfl) (keepV_trans (change_keepV h3 fun _ => rfl) (keepV_trans (change_keepV h4 fun _ => rfl)
      (keepV_trans (change_keepV h5 fun _ => rfl) (keepV_trans (setPar_keepV h6) (setPar_keepV h7)))))
  · simp only [moveNodeT, Res.bind_eq_ok]
    exact ⟨s1, h1, c1, hc1, s2, h2, c2, hc2, s3, h3, s4, h4, s5, h5, c3, hc3, s6, h6, c4, hc4, h7⟩

theorem setTree_setTree_put {S : Nat → BT α} (k j : Nat) (p q : List Bool) (u x y : BT α) :
    setTree (setTree (setTree S j ((S j).put q u)) k ((setTree S j ((S j).put q u) k).put p x)) k
      ((setTree (setTree S j ((S j).put q u)) k ((setTree S j ((S j).put q u) k).put p x) k).put p y) =
    setTree (setTree S j ((S j).put q u)) k ((setTree S j ((S j).put q u) k).put p y) := by
  funext a
  by_cases ha : a = k
  · subst ha; simp [setTree, put_put]
  · simp [setTree, ha]

theorem cut_move (dflt : α) {s : St α} {T : Nat → Tree α} (h : Inv s T) (k : Nat) (p : List Bool) (j : Nat) (q : List Bool) (f : Fault)
    (hs : NodeSafe (.moveAssign k p j q : BOp α)) : CutGood dflt s T (.moveAssign k p j q) f := by
  have hcut : bcut dflt s (.moveAssign k p j q) f = match ptr (subAt (T j) q) with
      | some src => (match ptr (subAt (T k) p) with
        | some dst => (if f.n = 0 then do
            let s ← moveNodeT s.fuel s dst src
            .ok (some s)
          else .ok none)
        | none => .ok none)
      | none => .ok none := by
    simp only [bcut, bonCut_rep h]
  cases htj : subAt (T j) q with
  | nil =>
    rw [htj] at hcut
    exact .inr ⟨hcut, fun _ => by simp only [bcutSpec, at_nil.2 htj]⟩
  | node si sp sv sh sl sr =>
    cases htk : subAt (T k) p with
    | nil =>
      rw [htj, htk] at hcut
      exact .inr ⟨hcut, fun _ => by simp only [bcutSpec, at_nil.2 htk, at_node htj]⟩
    | node i ip v hh l r =>
      rw [htj, htk] at hcut
      simp only [ptr_node] at hcut
      by_cases hn : f.n = 0
      · rw [if_pos hn] at hcut
        have hstep : ∃ o s' T', StepOk dflt s T (.moveAssign k p j q) o s' T' ∧
            (Separate k p j q → ptr (subAt (T' k) p) = some i) := by
          by_cases hsep : Separate k p j q
          · obtain ⟨o, s', T', hok, hat⟩ := move_ok_at dflt h k p j q hsep
            exact ⟨o, s', T', hok, fun _ => by rw [hat, htk]; rfl⟩
          · obtain ⟨o, s', T', hok⟩ := bstep_ok dflt h _ hs
            exact ⟨o, s', T', hok, fun hc => absurd hc hsep⟩
        obtain ⟨o, s', T', hok, hat⟩ := hstep
        have hrun := hok.run
        simp only [bstep, onNode_rep h, htj, htk, ptr_node, Res.bind_eq_ok] at hrun
        obtain ⟨s0, hm, he⟩ := hrun
        cases he
        obtain ⟨s1, s2, d, w, e1, keep, e2, hd, rfl⟩ := moveNode_split hm
        -- the old value
        obtain ⟨s1', e1', l1, -⟩ := clear_loc (fuel := s.fuel) (htk ▸ rep_subAt p (h.rep k)) (htk ▸ nodup_subAt p (h.nodup k)) h.fresh (by
          have := h.fuel k p
          rw [htk] at this
          rw [ids_length]; omega)
        rw [e1] at e1'
        cases e1'
        obtain ⟨d', hd', hv⟩ := keep i _ l1.rep.1
        rw [hd] at hd'
        cases hd'
        have hback : s2 = (s2.set i { d with val := w }).set i { ({ d with val := w } : Cell α) with val := v } := by
          rw [set_set]
          have : ({ ({ d with val := w } : Cell α) with val := v } : Cell α) = d := by
            have hv : d.val = v := hv
            show (⟨d.par, v, d.h, d.left, d.right⟩ : Cell α) = d
            rw [← hv]
          rw [this]
          cases s2
          simp only [St.set, St.mk.injEq, and_true]
          funext a
          by_cases ha : a = i
          · subst ha; simpa using hd
          · simp [ha]
        have hinv := setV_inv hok.inv (mem_set_self s2 i { d with val := w }) v
        rw [← hback] at hinv
        have hsome : ∀ a, (∃ c, s2.mem a = some c) ↔ ∃ c, (s2.set i { d with val := w }).mem a = some c := fun a => by
          by_cases ha : a = i
          · subst ha; rw [mem_set_self, hd]; simp
          · rw [mem_set_ne _ ha]
        refine .inl ⟨s2, _, by rw [hcut, e2]; rfl, hinv, fun hf => ?_, fun ht hl a c hc => ?_, fun hp hpar a => parents_setV _ _ _ _ (hok.par hp.1 hp.2 hpar a),
          fun a ha => ?_, fun ht => ?_⟩
        · have hsep : Separate k p j q := hf
          have hsp := hok.spec hsep trivial
          simp only [bspec, at_node htj, at_node htk, Prod.mk.injEq, true_and] at hsp
          simp only [bcutSpec, at_node htj, at_node htk, if_pos hn, Option.some.injEq]
          have hp := hat hsep
          cases hT : subAt (T' k) p with
          | nil => rw [hT] at hp; cases hp
          | node i' ip' v' hh' l' r' =>
            rw [hT] at hp
            simp only [ptr_node, Option.some.injEq] at hp
            subst hp
            have hput : ∀ (path : List Bool) (t x : BT α), (t.put path x).at path = x ∨ (t.put path x).at path = .nil := by
              intro path
              induction path with
              | nil => intro t x; left; cases t <;> cases x <;> rfl
              | cons b path ih =>
                intro t x
                cases t with
                | nil => right; rfl
                | node v l r => cases b <;> exact ih _ _
            have hx : (erase (T' k)).at p = .node sv (erase sl) (erase sr) := by
              have h1 := congrFun hsp k
              have h2 := at_node hT
              rw [← h1] at h2 ⊢
              simp only [setTree, if_true] at h2 ⊢
              rcases hput p _ (.node sv (erase sl) (erase sr)) with h3 | h3
              · exact h3
              · rw [h3] at h2; cases h2
            rw [at_node hT] at hx
            simp only [BT.node.injEq] at hx
            obtain ⟨-, hxl, hxr⟩ := hx
            have hval : (fun a => erase (setV i' v (T' a))) = setTree (fun a => erase (T' a)) k ((erase (T' k)).put p (.node v (erase sl) (erase sr))) := by
              funext a
              by_cases ha : a = k
              · subst ha
                rw [setV_at v p (hok.inv.nodup a) hT, erase_putAt]
                simp only [setTree, if_true, erase, hxl, hxr]
              · rw [setV_not]
                · simp [setTree, ha]
                · exact hok.inv.disj k a i' (Ne.symm ha) (mem_subAt p (by rw [hT]; simp [ids]))
            rw [hval]
            have h1 := congrFun hsp k
            rw [← hsp, ← h1, setTree_setTree_put]
        · obtain ⟨c', hc'⟩ := (hsome a).1 ⟨c, hc⟩
          obtain ⟨m, hm⟩ := hok.noLeak ht hl a c' hc'
          exact ⟨m, by rwa [ids_setV]⟩
        · obtain ⟨h1, h2⟩ := hok.lost a ha
          exact ⟨(hsome a).2 h1, fun m => by rw [ids_setV]; exact h2 m⟩
        · obtain ⟨a, h1, h2⟩ := hok.new ht
          exact ⟨a, (hsome a).2 h1, fun m => by rw [ids_setV]; exact h2 m⟩
      · rw [if_neg hn] at hcut
        exact .inr ⟨hcut, fun _ => by simp only [bcutSpec, at_node htk, at_node htj, if_neg hn]⟩

/-! ### Copies -/

theorem copyNodeT_clear (dflt : α) {fuel n : Nat} {s s1 : St α} {dst src : Nat} {p : Ptr} {v : α} {h : Nat} (h1 : clearNode fuel s dst = .ok s1)
    (hd : s1.mem dst = some ⟨p, v, h, none, none⟩) : copyNodeT dflt (fuel + 1) n s dst src = copyNodeT dflt (fuel + 1) n s1 dst src := by
  unfold copyNodeT
  rw [h1]
  simp only [Res.bind_ok, clearNode_leaf fuel hd]

theorem copyNodeT_self (dflt : α) {fuel n : Nat} {s : St α} {i : Nat} {p : Ptr} {v : α} {h : Nat} (hi : s.mem i = some ⟨p, v, h, none, none⟩) :
    cutState (copyNodeT dflt (fuel + 1) n s i i) = .ok (if n = 0 then some s else none) := by
  cases n with
  | zero => simp [cutState, copyNodeT, copySide, Cell.side, clearNode_leaf fuel hi, cell_eq hi]
  | succ n => simp [cutState, copyNodeT, copySide, Cell.side, clearNode_leaf fuel hi, cell_eq hi, change_eq hi]

theorem cut_assign (dflt : α) {s : St α} {T : Nat → Tree α} (h : Inv s T) (k : Nat) (p : List Bool) (j : Nat) (q : List Bool) (f : Fault)
    (hs : NodeSafe (.assign k p j q : BOp α)) : CutGood dflt s T (.assign k p j q) f := by
  have hcut : bcut dflt s (.assign k p j q) f = match ptr (subAt (T j) q) with
      | some src => (match ptr (subAt (T k) p) with
        | some dst => cutState (copyNodeT dflt s.fuel f.n s dst src)
        | none => .ok none)
      | none => .ok none := by
    simp only [bcut, bonCut_rep h]
  cases htj : subAt (T j) q with
  | nil =>
    rw [htj] at hcut
    exact .inr ⟨hcut, fun _ => by simp only [bcutSpec, at_nil.2 htj]⟩
  | node si sp sv sh sl sr =>
    cases htk : subAt (T k) p with
    | nil =>
      rw [htj, htk] at hcut
      exact .inr ⟨hcut, fun _ => by simp only [bcutSpec, at_nil.2 htk, at_node htj]⟩
    | node i ip v hh l r =>
      rw [htj, htk] at hcut
      simp only [ptr_node] at hcut
      have hfu := h.fuel k p
      rw [htk] at hfu
      obtain ⟨s1, e1, l1, x1⟩ := clear_loc (fuel := s.next) (htk ▸ rep_subAt _ (h.rep k)) (htk ▸ nodup_subAt _ (h.nodup k)) h.fresh (by
        rw [ids_length]; unfold St.fuel at hfu; omega)
      have hi1 : s1.mem i = some ⟨ip, v, hh, none, none⟩ := l1.rep.1
      have hc := copyNodeT_clear dflt (n := f.n) (src := si) e1 hi1
      rw [show s.fuel = s.next + 1 from rfl, hc] at hcut
      by_cases hsep : Separate k p j q
      · have hrs : Rep s.mem (.node si sp sv sh sl sr) := htj ▸ rep_subAt q (h.rep j)
        have hdis : ∀ a ∈ ids (.node si sp sv sh sl sr), a ∉ ids (.node i ip v hh l r) := fun a ha => by
          rw [← htk]; exact sep_disj h hsep (htj ▸ ha)
        have hrs1 : Rep s1.mem (.node si sp sv sh sl sr) := hrs.congr fun a ha => l1.frame a (hdis a ha) (by
          have := hdis a ha
          simp only [ids, List.mem_cons, not_or] at this
          simpa [ids] using this.1)
        have hid : i ∉ ids (.node si sp sv sh sl sr) := fun hc => hdis i hc (by simp [ids])
        have hfj := h.fuel j q
        rw [htj] at hfj
        obtain ⟨a, s2, w, l', r', e2, ok, hsp, htop⟩ := copyNodeT_ok dflt _ (s.next + 1) (by unfold St.fuel at hfj; omega) f.n s1 i si sp sv sh sl sr
          ip v hh rfl hi1 hid hrs1 l1.fresh
        have hspec : bcutSpec dflt (fun k => erase (T k)) (.assign k p j q) f = if a = none then
            some (setTree (fun k => erase (T k)) k ((erase (T k)).put p (.node w (erase l') (erase r')))) else none := by
          have hsp' : partNode dflt f.n v (.node sv (erase sl) (erase sr)) = (a, .node w (erase l') (erase r')) := hsp.symm
          simp only [bcutSpec, at_node htj, at_node htk, hsp']
          cases a <;> simp
        rw [e2] at hcut
        cases a with
        | some m => exact .inr ⟨hcut, fun _ => hspec⟩
        | none =>
          have hin : i < s1.next := fresh_lt l1.fresh hi1
          have l2 : Loc0 s1 s2 (.node i ip v hh .nil .nil) (.node i ip w hh l' r') := by
            refine ⟨rfl, ok.rep, ok.nodup, ok.roots, ok.next, fun a h1 h2 => ?_, fun a ha => ?_, fun a h1 h2 => ?_, ok.fresh⟩
            · simp only [ids, List.mem_cons, List.mem_append, not_or] at h2
              exact ok.frame a h2.1 h2.2.1 h2.2.2
            · simp only [ids, List.mem_cons] at ha
              rcases ha with rfl | ha
              · left; simp [ids]
              · exact .inr (ok.ids a ha)
            · simp only [ids, List.append_nil, List.mem_singleton] at h1
              exact absurd (by simp [ids, h1]) h2
          refine cut_local h htk (by simp) (l1.toLoc0.trans h.fresh l2) hcut (fun _ => hspec) (fun hl q hq => ?_) trivial
          have := htop (hl.2 si _ (by rw [h.follow, htj]; rfl) (looks_rep hrs))
          exact ⟨hq.1, this.1, this.2⟩
      · have : k = j ∧ p = q := by
          simp only [Separate, Classical.not_imp, not_and_or, not_not] at hsep
          obtain ⟨e, hsep⟩ := hsep
          refine ⟨e, ?_⟩
          obtain ⟨h1, h2⟩ := hs
          by_contra hne
          rcases hsep with h3 | h3
          · exact h1 ⟨e, h3, hne⟩
          · exact h2 ⟨e.symm, h3, Ne.symm hne⟩
        obtain ⟨rfl, rfl⟩ := this
        rw [htk] at htj
        cases htj
        rw [copyNodeT_self dflt hi1] at hcut
        by_cases hn : f.n = 0
        · rw [if_pos hn] at hcut
          exact cut_local h htk (by simp) l1.toLoc0 hcut (fun hc => absurd hc hsep) (fun _ => l1.par) trivial
        · rw [if_neg hn] at hcut
          exact .inr ⟨hcut, fun hc => absurd hc hsep⟩

theorem cut_copy (dflt : α) {s : St α} {T : Nat → Tree α} (h : Inv s T) (k j : Nat) (f : Fault) : CutGood dflt s T (.copy k j) f := by
  cases hT : T j with
  | nil =>
    have hroot : s.roots j = none := by rw [h.root, hT]; rfl
    exact .inr ⟨by simp only [bcut, copyTreeT, hroot], fun _ => by simp only [bcutSpec, hT, erase]⟩
  | node si sp sv sh l r =>
    have hroot : s.roots j = some si := by rw [h.root, hT]; rfl
    have hnil : T j ≠ .nil := by rw [hT]; simp
    obtain ⟨n, ctor⟩ := f
    cases n with
    | zero => exact cut_same h (by simp only [bcut, copyTreeT, hroot]) (by simp only [bcutSpec, hT, erase]) (.inl rfl)
    | succ n =>
      generalize hs1 : (alloc s none dflt).2.setRoot k (some s.next) = s1
      have m1 : ∀ i, i ≠ s.next → s1.mem i = s.mem i := fun i hi => by rw [← hs1]; exact mem_alloc_ne _ _ _ hi
      have m2 : s1.mem s.next = some ⟨none, dflt, 1, none, none⟩ := by rw [← hs1]; exact mem_alloc_self _ _ _
      have x1 : s1.next = s.next + 1 := by rw [← hs1]; rfl
      have q1 : s1.roots = (s.setRoot k (some s.next)).roots := by rw [← hs1]; rfl
      have f1 : Fresh s1 := fun i hi => by rw [m1 i (by omega), h.fresh i (by omega)]
      have hcut : bcut dflt s (.copy k j) ⟨n + 1, ctor⟩ = match s1.roots j with
          | none => .exc .invalidNode
          | some src => (do
            let r ← cutState (copyNodeT dflt s.fuel n s1 s.next src)
            Res.ok (if ctor = true ∧ s.roots k = none then r.map (·.setRoot k none) else r)) := by
        simp only [bcut, copyTreeT, hroot, hs1]
        all_goals (cases s1.roots j <;> rfl)
      -- the trees after the copy: `u` is the new one
      have lost : ∀ {s' : St α} {t : Tree α}, (∀ i ∈ ids (T k), s'.mem i = s.mem i) → (∀ i ∈ ids t, s.next ≤ i) → T k ≠ .nil →
          ∃ i, Lost s' (upd T k t) i := by
        intro s' t hm ht hk
        cases hTk : T k with
        | nil => exact absurd hTk hk
        | node i p v hh l r =>
          have hi : i ∈ ids (T k) := by rw [hTk]; simp [ids]
          obtain ⟨c, hc⟩ := (h.rep k).some hi
          refine ⟨i, ⟨c, by rw [hm i hi, hc]⟩, fun m => ?_⟩
          by_cases hmk : m = k
          · subst hmk
            rw [upd_self]
            intro hit
            have := ht i hit
            have := h.lt hi
            omega
          · rw [upd_ne _ hmk]
            exact h.disj k m i (Ne.symm hmk) hi
      have fin : ∀ (s2 : St α) (w : α) (l' r' : Tree α), ¬ (ctor = true ∧ s.roots k = none) →
          bcut dflt s (.copy k j) ⟨n + 1, ctor⟩ = .ok (some s2) →
          NodeOk s1 s.next none 1 none s2 w l' r' →
          (BFaithful s (.copy k j : BOp α) → bcutSpec dflt (fun k => erase (T k)) (.copy k j) ⟨n + 1, ctor⟩ =
            some (setTree (fun k => erase (T k)) k (.node w (erase l') (erase r')))) →
          (BLocalCut dflt s (.copy k j : BOp α) ⟨n + 1, ctor⟩ → ParentsExact (some s.next) l' ∧ ParentsExact (some s.next) r') →
          CutGood dflt s T (.copy k j) ⟨n + 1, ctor⟩ := by
        intro s2 w l' r' hct hrun ok hspec hpar
        have hids : ∀ i ∈ ids (.node s.next none w 1 l' r'), s.next ≤ i := fun i hi => by
          simp only [ids, List.mem_cons] at hi
          rcases hi with rfl | hi
          · exact Nat.le_refl _
          · have := ok.ids i hi; omega
        have hframe : ∀ i, i ∉ ids (.node s.next none w 1 l' r') → s2.mem i = s.mem i := fun i hi => by
          simp only [ids, List.mem_cons, List.mem_append, not_or] at hi
          rw [ok.frame i hi.1 hi.2.1 hi.2.2, m1 i hi.1]
        have hnx := ok.next
        refine .inl ⟨s2, upd T k (.node s.next none w 1 l' r'), hrun, ?_, fun hf => by rw [hspec hf, erase_upd]; rfl, fun ht hl => ?_,
          fun hc hp => parents_upd hp k ⟨rfl, (hpar hc).1, (hpar hc).2⟩, Lost.update h k _ (fun i _ hi => hframe i hi) (fun i hi => .inr (hids i hi)),
          fun ht => lost (fun i hi => hframe i fun hc => by have := hids i hc; have := h.lt hi; omega) hids fun e => ht ?_⟩
        · refine h.update k _ ok.rep ok.nodup (by rw [ok.roots, q1]; rfl) (fun i _ hi => hframe i hi) (fun i hi => .inr ⟨hids i hi, ?_⟩) (by omega)
          exact rep_lt ok.fresh ok.rep hi
        · rcases ht with ht | ⟨ht, -⟩
          · cases ht
          · have : T k = .nil := ptr_none.1 (by rw [← h.root]; exact ht)
            exact hl.update k _ (fun i _ hi => hframe i hi) (by rw [this]; simp [ids])
        · have hr : s.roots k = none := by rw [h.root, e]; rfl
          refine .inr ⟨hr, ?_⟩
          cases ctor with
          | false => rfl
          | true => exact absurd ⟨rfl, hr⟩ hct
      by_cases hkj : k = j
      · subst hkj
        have hr1 : s1.roots k = some s.next := by rw [q1]; simp [St.setRoot]
        have hct : ¬ (ctor = true ∧ s.roots k = none) := fun hc => by rw [hc.2] at hroot; cases hroot
        rw [hr1] at hcut
        simp only [St.fuel, copyNodeT_self dflt m2, Res.bind_ok, if_neg hct] at hcut
        by_cases hn : n = 0
        · rw [if_pos hn] at hcut
          refine fin s1 dflt .nil .nil hct hcut ⟨⟨m2, trivial, trivial⟩, by simp [ids], rfl, Nat.le_refl _, by simp [ids], fun _ _ _ _ => rfl, f1,
            fun hc => absurd rfl hc⟩ (fun hf => absurd rfl hf.1) fun _ => ⟨trivial, trivial⟩
        · rw [if_neg hn] at hcut
          exact .inr ⟨hcut, fun hf => absurd rfl hf.1⟩
      · have hr1 : s1.roots j = some si := by
          rw [q1]
          simp only [St.setRoot, if_neg (Ne.symm hkj), hroot]
        have hrep : Rep s.mem (.node si sp sv sh l r) := by rw [← hT]; exact h.rep j
        have hlt : ∀ i ∈ ids (.node si sp sv sh l r), i < s.next := fun i hi => h.lt (k := j) (by rw [hT]; exact hi)
        have hsz : sz (.node si sp sv sh l r) ≤ s.fuel := by
          have := h.length j
          rw [hT, ids_length] at this
          unfold St.fuel; omega
        obtain ⟨a, s2, w, l', r', e2, ok, hsp, htop⟩ := copyNodeT_ok dflt _ s.fuel hsz n s1 s.next si sp sv sh l r none dflt 1 rfl m2
          (fun hi => by have := hlt _ hi; omega) (hrep.congr fun i hi => m1 i (by have := hlt _ hi; omega)) f1
        rw [hr1] at hcut
        simp only [e2, cutState, Res.bind_ok] at hcut
        have hsp' : partNode dflt n dflt (.node sv (erase l) (erase r)) = (a, .node w (erase l') (erase r')) := hsp.symm
        cases a with
        | some m =>
          refine .inr ⟨?_, fun _ => by simp only [bcutSpec, hT, erase, hsp']⟩
          rw [hcut]
          split <;> rfl
        | none =>
          by_cases hct : ctor = true ∧ s.roots k = none
          · rw [if_pos hct] at hcut
            simp only [if_true, Option.map_some] at hcut
            have hTk : T k = .nil := ptr_none.1 (by rw [← h.root]; exact hct.2)
            have hframe : ∀ i, i < s.next → s2.mem i = s.mem i := fun i hi => by
              rw [ok.frame i (by omega) (fun hc => by have := ok.ids i (List.mem_append_left _ hc); omega)
                fun hc => by have := ok.ids i (List.mem_append_right _ hc); omega, m1 i (by omega)]
            have hroots : (s2.setRoot k none).roots = s.roots := by
              have h0 : (s2.setRoot k none).roots = ((s2.setRoot k none).setRoot k none).roots := by
                funext a; by_cases ha : a = k <;> simp [St.setRoot, ha]
              funext a
              by_cases ha : a = k
              · rw [ha, hct.2]; simp [St.setRoot]
              · have : (s2.setRoot k none).roots a = s2.roots a := by simp [St.setRoot, ha]
                rw [this, ok.roots, q1]
                simp [St.setRoot, ha]
            have hnx := ok.next
            refine .inl ⟨s2.setRoot k none, T, hcut, ⟨fun a => (h.rep a).congr fun i hi => hframe i (h.lt hi), fun a => by rw [hroots, h.root],
              h.nodup, h.disj, ok.fresh⟩, fun hf => ?_, fun ht => ?_, fun _ => id, fun i hi => ⟨?_, hi.2⟩, fun _ => ⟨s.next, ⟨_, ok.rep.1⟩, fun m hm => ?_⟩⟩
            · simp only [bcutSpec, hT, erase, hsp', hTk, hct.1]
            · rcases ht with ht | ht
              · cases ht
              · exact absurd (hct.1.symm.trans ht.2) (by simp)
            · obtain ⟨c, hc⟩ := hi.1
              exact ⟨c, by rw [← hc]; exact hframe i (fresh_lt h.fresh hc)⟩
            · have := h.lt hm
              omega
          · rw [if_neg hct, if_pos rfl] at hcut
            refine fin s2 w l' r' hct hcut ok (fun _ => ?_) (fun hl => ?_)
            · simp only [bcutSpec, hT, erase, hsp']
              cases hc : ctor with
              | false => rfl
              | true =>
                cases hTk : T k with
                | nil => exact absurd ⟨hc, by rw [h.root, hTk]; rfl⟩ hct
                | node => rfl
            · exact htop (hl n _ rfl hct (by rw [hroot]; exact looks_rep hrep))

/-! ### The other statements -/

theorem cut_swap (dflt : α) {s : St α} {T : Nat → Tree α} (h : Inv s T) (k : Nat) (p : List Bool) (dir : Nat) (f : Fault) :
    CutGood dflt s T (.swap k p dir) f := by
  have hcut : bcut dflt s (.swap k p dir) f = match ptr (subAt (T k) p) with
      | some i => (do
        let c ← cell s i
        match dir with
        | 0 => swapT s i c.left f.n
        | 1 => swapT s i c.right f.n
        | _ => .ok none)
      | none => .ok none := by
    simp only [bcut, bonCut_rep h]
    all_goals rfl
  cases ht : subAt (T k) p with
  | nil =>
    rw [ht] at hcut
    refine .inr ⟨hcut, fun _ => ?_⟩
    simp only [bcutSpec, at_nil.2 ht]
  | node i ip v hh l r =>
    rw [ht] at hcut
    have hr : Rep s.mem (.node i ip v hh l r) := ht ▸ rep_subAt p (h.rep k)
    have hn : (ids (.node i ip v hh l r)).Nodup := ht ▸ nodup_subAt p (h.nodup k)
    obtain ⟨n1, n2, n3, n4, n5⟩ := nodup_node.1 hn
    simp only [ptr_node, cell_eq hr.1, Res.bind_ok] at hcut
    have fr : ∀ (a : Nat) (c c' : Cell α), s.mem a = some c → Fresh (s.set a c') := by
      intro a c c' ha b hb
      have hb' : s.mem b = none := h.fresh b hb
      rw [mem_set_ne _ (by rintro rfl; rw [ha] at hb'; cases hb'), hb']
    match dir with
    | 0 =>
      simp only at hcut
      cases l with
      | nil =>
        refine .inr ⟨hcut, fun _ => ?_⟩
        simp only [bcutSpec, at_node ht, erase]
        cases erase r <;> rfl
      | node li lp lv lh ll lr =>
        simp only [ptr_node] at hcut
        match hf : f.n with
        | 0 => exact cut_same h (by rw [hcut, hf]; rfl) (by simp [bcutSpec, at_node ht, erase, hf]) trivial
        | 1 => exact cut_same h (by rw [hcut, hf]; rfl) (by simp [bcutSpec, at_node ht, erase, hf]) trivial
        | 2 =>
          obtain ⟨hi, ⟨hl, hll, hlr⟩, hrr⟩ := hr
          obtain ⟨m1, m2, m3, m4, m5⟩ := nodup_node.1 n3
          simp only [ids, List.mem_cons, List.mem_append, not_or] at n1 n5
          have hloc : Loc0 s (s.set li ⟨lp, v, lh, ptr ll, ptr lr⟩) (.node i ip v hh (.node li lp lv lh ll lr) r)
              (.node i ip v hh (.node li lp v lh ll lr) r) := by
            refine ⟨rfl, ⟨by rw [mem_set_ne _ n1.1, hi]; rfl, ⟨mem_set_self _ _ _, rep_set m1 hll, rep_set m2 hlr⟩, rep_set (n5 li (.inl rfl)) hrr⟩, hn,
              rfl, Nat.le_refl _, fun b h1 _ => mem_set_ne _ (fun e => h1 (by simp [ids, e])) _, fun b hb => .inl hb, fun b h1 h2 => absurd h1 h2, fr li _ _ hl⟩
          refine cut_local h ht (by simp) hloc ?_ (fun _ => ?_) (fun _ q hq => hq) trivial
          · rw [hcut, hf]
            simp only [swapT, cell_eq hi, Res.bind_ok, change_eq hl]
          · simp [bcutSpec, at_node ht, erase, hf]
        | n + 3 =>
          refine .inr ⟨by rw [hcut, hf]; rfl, fun _ => ?_⟩
          simp [bcutSpec, at_node ht, erase, hf]
    | 1 =>
      simp only at hcut
      cases r with
      | nil =>
        refine .inr ⟨hcut, fun _ => ?_⟩
        simp only [bcutSpec, at_node ht, erase]
        cases erase l <;> rfl
      | node ri rp rv rh rl rr =>
        simp only [ptr_node] at hcut
        have hspec : bcutSpec dflt (fun k => erase (T k)) (.swap k p 1) f = if f.n < 2 then some (fun k => erase (T k)) else
            if f.n = 2 then some (setTree (fun k => erase (T k)) k ((erase (T k)).put p (.node v (erase l) (.node v (erase rl) (erase rr))))) else none := by
          simp only [bcutSpec, at_node ht, erase]
        match hf : f.n with
        | 0 => exact cut_same h (by rw [hcut, hf]; rfl) (by simp [hspec, hf]) trivial
        | 1 => exact cut_same h (by rw [hcut, hf]; rfl) (by simp [hspec, hf]) trivial
        | 2 =>
          obtain ⟨hi, hll, ⟨hr, hrl, hrr⟩⟩ := hr
          obtain ⟨m1, m2, m3, m4, m5⟩ := nodup_node.1 n4
          simp only [ids, List.mem_cons, List.mem_append, not_or] at n2 n5
          have hloc : Loc0 s (s.set ri ⟨rp, v, rh, ptr rl, ptr rr⟩) (.node i ip v hh l (.node ri rp rv rh rl rr))
              (.node i ip v hh l (.node ri rp v rh rl rr)) := by
            refine ⟨rfl, ⟨by rw [mem_set_ne _ n2.1, hi]; rfl, rep_set (fun hc => (n5 ri hc).1 rfl) hll, ⟨mem_set_self _ _ _, rep_set m1 hrl, rep_set m2 hrr⟩⟩, hn,
              rfl, Nat.le_refl _, fun b h1 _ => mem_set_ne _ (fun e => h1 (by simp [ids, e])) _, fun b hb => .inl hb, fun b h1 h2 => absurd h1 h2, fr ri _ _ hr⟩
          refine cut_local h ht (by simp) hloc ?_ (fun _ => ?_) (fun _ q hq => hq) trivial
          · rw [hcut, hf]
            simp only [swapT, cell_eq hi, Res.bind_ok, change_eq hr]
          · simp [hspec, hf, erase]
        | n + 3 =>
          refine .inr ⟨by rw [hcut, hf]; rfl, fun _ => ?_⟩
          simp [hspec, hf]
    | dir + 2 =>
      refine .inr ⟨hcut, fun _ => ?_⟩
      simp only [bcutSpec, at_node ht]
      cases l <;> cases r <;> rfl

theorem bcut_good (dflt : α) {s : St α} {T : Nat → Tree α} (h : Inv s T) (op : BOp α) (f : Fault) (hs : NodeSafe op) : CutGood dflt s T op f := by
  cases op with
  | addRoot k x =>
    by_cases hn : f.n = 0
    · obtain ⟨s', e1, i1, -, -, l1⟩ := deleteRoot_inv h k
      exact .inl ⟨s', _, by simp only [bcut, if_pos hn, e1, Res.bind_ok], i1, fun _ => by simp only [bcutSpec, if_pos hn, erase_upd, erase],
        fun _ => l1.1, fun _ hp => parents_upd hp k trivial, l1.2, fun ht => absurd trivial ht⟩
    · exact .inr ⟨by simp only [bcut, if_neg hn], fun _ => by simp only [bcutSpec, if_neg hn]⟩
  | addLeft k p x =>
    cases ht : subAt (T k) p with
    | nil => exact .inr ⟨by simp only [bcut, bonCut_rep h, ht, ptr], fun _ => by simp only [bcutSpec, at_nil.2 ht]⟩
    | node i ip v hh l r =>
      have hr : Rep s.mem (.node i ip v hh l r) := ht ▸ rep_subAt p (h.rep k)
      have hcut : bcut dflt s (.addLeft k p x) f = .ok (if ptr l = none ∧ f.n = 0 then some s else none) := by
        simp only [bcut, bonCut_rep h, ht, ptr_node, cell_eq hr.1, Res.bind_ok]
      cases l with
      | nil =>
        by_cases hn : f.n = 0
        · exact cut_same h (by rw [hcut, if_pos ⟨rfl, hn⟩]) (by simp only [bcutSpec, at_node ht, erase, if_pos hn]) trivial
        · exact .inr ⟨by rw [hcut, if_neg fun hc => hn hc.2], fun _ => by simp only [bcutSpec, at_node ht, erase, if_neg hn]⟩
      | node => exact .inr ⟨by rw [hcut, if_neg fun hc => by cases hc.1], fun _ => by simp only [bcutSpec, at_node ht, erase]⟩
  | addRight k p x =>
    cases ht : subAt (T k) p with
    | nil => exact .inr ⟨by simp only [bcut, bonCut_rep h, ht, ptr], fun _ => by simp only [bcutSpec, at_nil.2 ht]⟩
    | node i ip v hh l r =>
      have hr : Rep s.mem (.node i ip v hh l r) := ht ▸ rep_subAt p (h.rep k)
      have hcut : bcut dflt s (.addRight k p x) f = .ok (if ptr r = none ∧ f.n = 0 then some s else none) := by
        simp only [bcut, bonCut_rep h, ht, ptr_node, cell_eq hr.1, Res.bind_ok]
      cases r with
      | nil =>
        by_cases hn : f.n = 0
        · exact cut_same h (by rw [hcut, if_pos ⟨rfl, hn⟩]) (by simp only [bcutSpec, at_node ht, erase, if_pos hn]) trivial
        · exact .inr ⟨by rw [hcut, if_neg fun hc => hn hc.2], fun _ => by simp only [bcutSpec, at_node ht, erase, if_neg hn]⟩
      | node => exact .inr ⟨by rw [hcut, if_neg fun hc => by cases hc.1], fun _ => by simp only [bcutSpec, at_node ht, erase]⟩
  | setValue k p x =>
    cases ht : subAt (T k) p with
    | nil => exact .inr ⟨by simp only [bcut, bonCut_rep h, ht, ptr], fun _ => by simp only [bcutSpec, at_nil.2 ht]⟩
    | node i ip v hh l r =>
      have hcut : bcut dflt s (.setValue k p x) f = .ok (if f.n = 0 then some s else none) := by
        simp only [bcut, bonCut_rep h, ht, ptr_node]
      by_cases hn : f.n = 0
      · exact cut_same h (by rw [hcut, if_pos hn]) (by simp only [bcutSpec, at_node ht, if_pos hn]) trivial
      · exact .inr ⟨by rw [hcut, if_neg hn], fun _ => by simp only [bcutSpec, at_node ht, if_neg hn]⟩
  | swap k p dir => exact cut_swap dflt h k p dir f
  | assign k p j q => exact cut_assign dflt h k p j q f hs
  | moveAssign k p j q => exact cut_move dflt h k p j q f hs
  | copy k j => exact cut_copy dflt h k j f
  | deleteChild k p dir => exact .inr ⟨rfl, fun _ => rfl⟩
  | clearNode k p => exact .inr ⟨rfl, fun _ => rfl⟩
  | clear k => exact .inr ⟨rfl, fun _ => rfl⟩
  | move k j => exact .inr ⟨rfl, fun _ => rfl⟩

end Verif.Mem
