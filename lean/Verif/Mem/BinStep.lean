import Verif.Mem.BinLemmas

/-! Each operation on plain binary trees keeps the invariant of the memory and does what the specification says. -/

namespace Verif.Mem
open Avl (Tree)
open Avl.Spec (ParentsExact)
open Spec
variable {α : Type}

/-! ### The specification -/

theorem put_put (p : List Bool) : ∀ t a b : BT α, (t.put p a).put p b = t.put p b := by
  induction p with
  | nil => intro t a b; cases t <;> cases a <;> rfl
  | cons c p ih =>
    intro t a b
    cases t with
    | nil => rfl
    | node v l r => cases c <;> simp only [BT.put, ih]

theorem put_comm (p : List Bool) : ∀ (q : List Bool) (t a b : BT α), ¬ p <+: q → ¬ q <+: p →
    (t.put p a).put q b = (t.put q b).put p a := by
  induction p with
  | nil => intro q t a b h; exact absurd List.nil_prefix h
  | cons c p ih =>
    intro q t a b h1 h2
    cases q with
    | nil => exact absurd List.nil_prefix h2
    | cons d q =>
      cases t with
      | nil => rfl
      | node v l r =>
        by_cases hcd : c = d
        · subst hcd
          replace h1 : ¬ p <+: q := fun h => h1 (List.cons_prefix_cons.2 ⟨rfl, h⟩)
          replace h2 : ¬ q <+: p := fun h => h2 (List.cons_prefix_cons.2 ⟨rfl, h⟩)
          cases c <;> simp only [BT.put, ih q _ a b h1 h2]
        · cases c <;> cases d <;> first | exact absurd rfl hcd | rfl

theorem at_nil {t : Tree α} {path : List Bool} : (erase t).at path = .nil ↔ subAt t path = .nil := by
  rw [← erase_subAt, erase_nil]

theorem at_node {t : Tree α} {path : List Bool} {i : Nat} {p : Ptr} {v : α} {h : Nat} {l r : Tree α}
    (ht : subAt t path = .node i p v h l r) : (erase t).at path = .node v (erase l) (erase r) := by
  rw [← erase_subAt, ht]; rfl

theorem erase_upd (T : Nat → Tree α) (k : Nat) (t : Tree α) :
    (fun j => erase (upd T k t j)) = setTree (fun j => erase (T j)) k (erase t) := by
  funext j
  by_cases hj : j = k <;> simp [upd, setTree, hj]

/-! ### Resolving nodes -/

theorem onNode_rep {s : St α} {T : Nat → Tree α} (h : Inv s T) (k : Nat) (path : List Bool) (f : Nat → Res (BOut × St α)) :
    onNode s k path f = match ptr (subAt (T k) path) with
      | some i => f i
      | none => .ok (.thrown, s) := by
  unfold onNode
  rw [h.root k, resolve_rep path (h.rep k)]
  cases ptr (subAt (T k) path) <;> rfl

/-- The trees an operation names. -/
def bnames : BOp α → List Nat
  | .addRoot k _ | .addLeft k _ _ | .addRight k _ _ | .deleteChild k _ _ | .swap k _ _ | .setValue k _ _ | .clearNode k _ | .clear k => [k]
  | .assign k _ j _ | .moveAssign k _ j _ | .copy k j | .move k j => [k, j]

/-- What a step has to do. -/
structure StepOk (dflt : α) (s : St α) (T : Nat → Tree α) (op : BOp α) (o : BOut) (s' : St α) (T' : Nat → Tree α) : Prop where
  run : bstep dflt s op = .ok (o, s')
  inv : Inv s' T'
  spec : NodeSane op → TreeSane (fun k => erase (T k)) op → bspec (fun k => erase (T k)) op = (o, fun k => erase (T' k))
  noLeak : Tidy s op → NoLeak s T → NoLeak s' T'
  par : NodeSane op → MovesRoots op → (∀ k, ParentsExact none (T k)) → ∀ k, ParentsExact none (T' k)
  others : ∀ j, j ∉ bnames op → T' j = T j
  lost : ∀ i, Lost s T i → Lost s' T' i
  new : ¬ Tidy s op → ∃ i, Lost s' T' i

theorem onNode_ok (dflt : α) {s : St α} {T : Nat → Tree α} (h : Inv s T) (op : BOp α) (k : Nat) (path : List Bool)
    (f : Nat → Res (BOut × St α)) (g : α → BT α → BT α → BOut × BT α) (hk : bnames op = [k]) (hty : Tidy s op) (hop : bstep dflt s op = onNode s k path f)
    (hspec : bspec (fun k => erase (T k)) op = BT.onNode (fun k => erase (T k)) k path g)
    (hf : ∀ i p v hh l r, subAt (T k) path = .node i p v hh l r →
      ∃ s' u, f i = .ok ((g v (erase l) (erase r)).1, s') ∧ Loc s s' (.node i p v hh l r) u ∧ erase u = (g v (erase l) (erase r)).2) :
    ∃ o s' T', StepOk dflt s T op o s' T' := by
  rw [onNode_rep h] at hop
  cases ht : subAt (T k) path with
  | nil =>
    rw [ht] at hop
    refine ⟨_, s, T, hop, h, fun _ _ => ?_, fun _ h => h, fun _ _ h => h, fun _ _ => rfl, fun _ h => h, fun hn => absurd hty hn⟩
    rw [hspec]
    simp only [BT.onNode, at_nil.2 ht]
  | node i p v hh l r =>
    rw [ht] at hop
    obtain ⟨s', u, e, hl, hu⟩ := hf i p v hh l r ht
    refine ⟨_, s', _, hop.trans e, hl.inv h ht, fun _ _ => ?_, fun _ hn => hl.noLeak hn ht (by simp), fun _ _ hp => hl.parents hp ht,
      fun j hj => upd_ne _ (by rw [hk] at hj; simpa using hj) _, hl.lost h ht, fun hn => absurd hty hn⟩
    rw [hspec]
    simp only [BT.onNode, at_node ht, erase_upd, erase_putAt, hu]

/-! ### Moving a node -/

theorem upd_mem_old {T : Nat → Tree α} {k m i : Nat} {path : List Bool} (u : Tree α) (h : i ∈ ids (T m))
    (h' : i ∉ ids (subAt (T k) path)) : i ∈ ids (upd T k (putAt (T k) path u) m) := by
  by_cases hm : m = k
  · subst hm; rw [upd_self]; exact mem_putAt_old path h h'
  · rwa [upd_ne _ hm]

theorem upd_mem {s : St α} {T : Nat → Tree α} (h : Inv s T) {k m i : Nat} {path : List Bool} {u : Tree α}
    (hi : i ∈ ids (upd T k (putAt (T k) path u) m)) : i ∈ ids u ∨ i ∈ ids (T m) ∧ i ∉ ids (subAt (T k) path) := by
  by_cases hm : m = k
  · subst hm; rw [upd_self] at hi; exact mem_putAt path (h.nodup m) hi
  · rw [upd_ne _ hm] at hi
    exact .inr ⟨hi, fun hc => h.disj m k i hm hi (mem_subAt path hc)⟩

theorem upd_subAt {T : Nat → Tree α} {k j : Nat} {p q : List Bool} (hs : Separate k p j q) (u : Tree α) :
    subAt (upd T k (putAt (T k) p u) j) q = subAt (T j) q := by
  by_cases hm : j = k
  · subst hm
    rw [upd_self, subAt_putAt_sep p (hs rfl).1 (hs rfl).2]
  · rw [upd_ne _ hm]

theorem sep_symm {k j : Nat} {p q : List Bool} (hs : Separate k p j q) : Separate j q k p := fun e => (hs e.symm).symm

theorem sep_disj {s : St α} {T : Nat → Tree α} (h : Inv s T) {k j : Nat} {p q : List Bool} (hs : Separate k p j q) {i : Nat}
    (hi : i ∈ ids (subAt (T j) q)) : i ∉ ids (subAt (T k) p) := by
  by_cases hm : j = k
  · subst hm; exact subAt_disj q (h.nodup j) (hs rfl).2 (hs rfl).1 hi
  · exact fun hc => h.disj j k i hm (mem_subAt q hi) (mem_subAt p hc)

theorem sz_subAt_le (path : List Bool) : ∀ t : Tree α, sz (subAt t path) ≤ sz t := by
  induction path with
  | nil => intro t; cases t <;> exact Nat.le_refl _
  | cons b path ih =>
    intro t
    cases t with
    | nil => exact Nat.le_refl _
    | node i p v h l r =>
      have h1 := ih l
      have h2 := ih r
      cases b <;> simp only [subAt, sz, if_true, if_false, Bool.false_eq_true] <;> omega

theorem Inv.fuel {s : St α} {T : Nat → Tree α} (h : Inv s T) (k : Nat) (path : List Bool) : sz (subAt (T k) path) < s.fuel := by
  have h1 := h.length k
  have h2 := sz_subAt_le path (T k)
  rw [ids_length] at h1
  unfold St.fuel
  omega

theorem parents_setParent {t : Tree α} {p q : Ptr} (h : ParentsExact p t) : ParentsExact q (t.setParent q) := by
  cases t with
  | nil => trivial
  | node i p' v hh l r => exact ⟨rfl, h.2⟩

theorem subAt_put_self (p : List Bool) : ∀ t u : Tree α, subAt t p ≠ .nil → subAt (putAt t p u) p = u := by
  induction p with
  | nil => intro t u _; cases t <;> cases u <;> rfl
  | cons b p ih =>
    intro t u ht
    cases t with
    | nil => exact absurd rfl ht
    | node => cases b <;> exact ih _ _ ht

/-- The target stays where it is. -/
theorem move_ok_at (dflt : α) {s : St α} {T : Nat → Tree α} (h : Inv s T) (k : Nat) (p : List Bool) (j : Nat) (q : List Bool)
    (hs : Separate k p j q) : ∃ o s' T', StepOk dflt s T (.moveAssign k p j q) o s' T' ∧ ptr (subAt (T' k) p) = ptr (subAt (T k) p) := by
  have hty : Tidy s (.moveAssign k p j q) := fun hb => absurd hb.2.1 (hs hb.1.symm).2
  have hop : bstep dflt s (.moveAssign k p j q) = match ptr (subAt (T j) q) with
      | some src => (match ptr (subAt (T k) p) with
        | some dst => (do let s ← moveNode s.fuel s dst src; .ok (.unit, s))
        | none => .ok (.thrown, s))
      | none => .ok (.thrown, s) := by
    simp only [bstep, onNode_rep h]
  cases htj : subAt (T j) q with
  | nil =>
    rw [htj] at hop
    refine ⟨_, s, T, ⟨hop, h, fun _ _ => ?_, fun _ h => h, fun _ _ h => h, fun _ _ => rfl, fun _ h => h, fun hn => absurd hty hn⟩, rfl⟩
    simp only [bspec, at_nil.2 htj]
  | node si sp sv sh sl sr =>
    cases htk : subAt (T k) p with
    | nil =>
      rw [htj, htk] at hop
      refine ⟨_, s, T, ⟨hop, h, fun _ _ => ?_, fun _ h => h, fun _ _ h => h, fun _ _ => rfl, fun _ h => h, fun hn => absurd hty hn⟩, by rw [htk]⟩
      simp only [bspec, at_nil.2 htk, at_node htj]
    | node i ip v hh l r =>
      rw [htj, htk] at hop
      simp only [ptr_node] at hop
      have hrk : Rep s.mem (.node i ip v hh l r) := htk ▸ rep_subAt p (h.rep k)
      have hnk : (ids (.node i ip v hh l r)).Nodup := htk ▸ nodup_subAt p (h.nodup k)
      have hfu : (ids (.node i ip v hh l r)).length ≤ s.fuel := by
        have := h.fuel k p
        rw [htk] at this
        rw [ids_length]; omega
      obtain ⟨s1, e1, l1, x1⟩ := clear_loc hrk hnk h.fresh hfu
      have h1 := l1.inv h htk
      generalize hT1 : upd T k (putAt (T k) p (.node i ip v hh .nil .nil)) = T1 at h1
      have htj1 : subAt (T1 j) q = .node si sp sv sh sl sr := by rw [← hT1, upd_subAt hs, htj]
      have htk1 : subAt (T1 k) p = .node i ip v hh .nil .nil := by
        rw [← hT1, upd_self]
        exact subAt_put_self p _ _ (by rw [htk]; simp)
      have hrj1 : Rep s1.mem (.node si sp sv sh sl sr) := htj1 ▸ rep_subAt q (h1.rep j)
      have hnj1 : (ids (.node si sp sv sh sl sr)).Nodup := htj1 ▸ nodup_subAt q (h1.nodup j)
      have hdis : i ∉ ids (.node si sp sv sh sl sr) := fun hc => sep_disj h1 hs (htj1 ▸ hc) (by rw [htk1]; simp [ids])
      obtain ⟨s', e', m', r', q', n', f'⟩ := move_rep (fuel := s.fuel) l1.rep.1 hrj1 hnj1 hdis
      have erun : moveNode s.fuel s i si = .ok s' := by
        rw [← e']
        unfold moveNode
        rw [e1, clearNode_leaf s.fuel l1.rep.1]
      rw [erun] at hop
      obtain ⟨n1, n2, n3, n4, n5⟩ := nodup_node.1 hnj1
      have hne : i ≠ si := fun e => hdis (by simp [ids, e])
      have hsi : si < s1.next := h1.lt (k := j) (mem_subAt q (by rw [htj1]; simp [ids]))
      -- the source becomes a leaf
      have hA : Inv (s1.set si ⟨none, sv, sh, none, none⟩) (upd T1 j (putAt (T1 j) q (.node si none sv sh .nil .nil))) := by
        refine h1.local (by rw [htj1]; rfl) ⟨mem_set_self _ _ _, trivial, trivial⟩ (by simp [ids]) rfl (fun a ha _ _ => ?_)
          (fun a ha => ?_) (fun a ha => ?_)
        · exact mem_set_ne _ (by rintro rfl; exact ha (by rw [htj1]; simp [ids])) _
        · left
          simp only [ids, List.append_nil, List.mem_singleton] at ha
          rw [htj1, ha]; simp [ids]
        · have ha : s1.next ≤ a := ha
          rw [mem_set_ne _ (by omega)]
          exact h1.fresh a ha
      generalize hT2 : upd T1 j (putAt (T1 j) q (.node si none sv sh .nil .nil)) = T2 at hA
      have htk2 : subAt (T2 k) p = .node i ip v hh .nil .nil := by rw [← hT2, upd_subAt (sep_symm hs), htk1]
      have hmoved : ∀ a, a ∈ ids sl ∨ a ∈ ids sr → ∀ m, a ∉ ids (T2 m) := by
        intro a ha m hc
        rw [← hT2] at hc
        rcases upd_mem h1 hc with h2 | ⟨-, h2⟩
        · simp only [ids, List.append_nil, List.mem_singleton] at h2
          subst h2
          exact ha.elim n1 n2
        · rw [htj1] at h2
          simp only [ids, List.mem_cons, List.mem_append, not_or] at h2
          exact ha.elim h2.2.1 h2.2.2
      have hfresh : Fresh s' := by
        intro a ha
        rw [n'] at ha
        have hai : a ≠ i := by
          rintro rfl
          have := h1.lt (k := k) (mem_subAt p (by rw [htk1]; simp [ids]) : a ∈ ids (T1 k))
          omega
        rw [f' a hai, h1.fresh a ha]
        intro hc
        have := h1.lt (k := j) (mem_subAt q (htj1 ▸ hc))
        omega
      have hid : ∀ a, a ∈ ids (.node i ip sv hh (sl.setParent (some i)) (sr.setParent (some i)) : Tree α) ↔ a = i ∨ a ∈ ids sl ∨ a ∈ ids sr := by
        intro a
        simp only [ids, ids_setPar, List.mem_cons, List.mem_append]
      have hB : Inv s' (upd T2 k (putAt (T2 k) p (.node i ip sv hh (sl.setParent (some i)) (sr.setParent (some i))))) := by
        refine hA.local (by rw [htk2]; rfl) r' ?_ q' (fun a ha1 ha2 _ => ?_) (fun a ha => ?_) hfresh
        · simp only [ids, List.mem_cons, List.mem_append, not_or] at hdis
          refine nodup_node.2 ⟨?_, ?_, ?_, ?_, ?_⟩ <;> simp only [ids_setPar]
          · exact hdis.2.1
          · exact hdis.2.2
          · exact n3
          · exact n4
          · exact n5
        · rw [hid, not_or, not_or] at ha2
          by_cases has : a = si
          · rw [has, m', mem_set_self]
          · rw [mem_set_ne _ has]
            exact f' a ha2.1 (by simp only [ids, List.mem_cons, List.mem_append, not_or]; exact ⟨has, ha2.2⟩)
        · rcases (hid a).1 ha with rfl | ha
          · left; rw [htk2]; simp [ids]
          · exact .inr (hmoved a ha)
      refine ⟨_, s', _, ⟨hop, hB, fun _ _ => ?_, fun _ hn => ?_, fun _ hm hp => ?_, fun a ha => ?_, fun a ha => ?_, fun hn => absurd hty hn⟩,
        by rw [upd_self, subAt_put_self _ _ _ (by rw [htk2]; simp)]; rfl⟩
      · simp only [bspec, at_node htj, at_node htk, erase_upd, erase_putAt, erase, erase_setParent]
        congr 1
        funext a
        have e1 : ∀ a, erase (T1 a) = if a = k then (erase (T k)).put p (.node v .nil .nil) else erase (T a) := by
          intro a
          rw [← hT1]
          by_cases ha : a = k
          · subst ha; simp [erase_putAt, erase]
          · simp [upd, ha]
        have e2 : ∀ a, erase (T2 a) = if a = j then (erase (T1 j)).put q (.node sv .nil .nil) else erase (T1 a) := by
          intro a
          rw [← hT2]
          by_cases ha : a = j
          · subst ha; simp [erase_putAt, erase]
          · simp [upd, ha]
        simp only [setTree, e2, e1]
        by_cases hkj : k = j
        · subst hkj
          simp only [if_true]
          obtain ⟨g1, g2⟩ := hs rfl
          rw [put_comm p q _ _ _ g1 g2, put_put]
          by_cases hak : a = k
          · simp [hak]
          · simp [hak]
        · simp only [if_neg hkj, if_neg (Ne.symm hkj), if_true, put_put]
          by_cases hak : a = k
          · simp [hak]
          · by_cases haj : a = j
            · simp [haj, Ne.symm hkj]
            · simp [hak, haj]
      · have hn1 := l1.noLeak hn htk (by simp)
        rw [hT1] at hn1
        have toB : ∀ a m, a ∈ ids (T2 m) → a ≠ i →
            a ∈ ids (upd T2 k (putAt (T2 k) p (.node i ip sv hh (sl.setParent (some i)) (sr.setParent (some i)))) m) := by
          intro a m ha hai
          exact upd_mem_old _ ha (by rw [htk2]; simpa [ids] using hai)
        intro a c ha
        by_cases h2 : a ∈ ids (.node i ip sv hh (sl.setParent (some i)) (sr.setParent (some i)) : Tree α)
        · exact ⟨k, by rw [upd_self]; exact mem_putAt_new p (by rw [htk2]; simp) h2⟩
        · rw [hid, not_or, not_or] at h2
          by_cases has : a = si
          · subst has
            refine ⟨j, toB _ _ ?_ h2.1⟩
            rw [← hT2, upd_self]
            exact mem_putAt_new q (by rw [htj1]; simp) (by simp [ids])
          · have hns : a ∉ ids (.node si sp sv sh sl sr) := by
              simp only [ids, List.mem_cons, List.mem_append, not_or]; exact ⟨has, h2.2⟩
            rw [f' a h2.1 hns] at ha
            obtain ⟨m, hm⟩ := hn1 a c ha
            refine ⟨m, toB _ _ ?_ h2.1⟩
            rw [← hT2]
            exact upd_mem_old _ hm (by rw [htj1]; exact hns)
      · have hp1 := l1.parents hp htk
        rw [hT1] at hp1
        have hm : q = [] := hm
        subst hm
        have hsrc : ParentsExact none (.node si sp sv sh sl sr) := by
          rw [← htj1]
          have := hp1 j
          cases hT : T1 j <;> rw [hT] at this <;> exact this
        have hp2 : ∀ m, ParentsExact none (T2 m) := by
          intro m
          rw [← hT2]
          by_cases hmj : m = j
          · subst hmj
            rw [upd_self]
            have : putAt (T1 m) [] (.node si none sv sh .nil .nil) = .node si none sv sh .nil .nil := by cases T1 m <;> rfl
            rw [this]
            exact ⟨rfl, trivial, trivial⟩
          · rw [upd_ne _ hmj]; exact hp1 m
        intro m
        by_cases hmk : m = k
        · subst hmk
          rw [upd_self]
          obtain ⟨q', g1, -, g3⟩ := parents_putAt p (hp2 m)
          rw [htk2] at g1
          exact g3 _ ⟨g1.1, parents_setParent hsrc.2.1, parents_setParent hsrc.2.2⟩
        · rw [upd_ne _ hmk]; exact hp2 m
      · simp only [bnames, List.mem_cons, List.not_mem_nil, or_false, not_or] at ha
        rw [upd_ne _ ha.1, ← hT2, upd_ne _ ha.2, ← hT1, upd_ne _ ha.1]
      · have ha1 := l1.lost h htk a ha
        rw [hT1] at ha1
        obtain ⟨⟨c, hc⟩, ha1⟩ := ha1
        have hai : a ≠ i := by
          rintro rfl
          exact ha1 k (mem_subAt p (by rw [htk1]; simp [ids]))
        have has : a ∉ ids (.node si sp sv sh sl sr) := fun hx => ha1 j (mem_subAt q (htj1 ▸ hx))
        refine ⟨⟨c, by rw [f' a hai has, hc]⟩, fun m hm => ?_⟩
        rcases upd_mem hA hm with h2 | ⟨h2, -⟩
        · rcases (hid a).1 h2 with h3 | h3
          · exact hai h3
          · exact has (by simp only [ids, List.mem_cons, List.mem_append]; exact .inr h3)
        · rw [← hT2] at h2
          rcases upd_mem h1 h2 with h3 | ⟨h3, -⟩
          · simp only [ids, List.append_nil, List.mem_singleton] at h3
            exact has (by simp [ids, h3])
          · exact ha1 m h3

theorem move_ok (dflt : α) {s : St α} {T : Nat → Tree α} (h : Inv s T) (k : Nat) (p : List Bool) (j : Nat) (q : List Bool)
    (hs : Separate k p j q) : ∃ o s' T', StepOk dflt s T (.moveAssign k p j q) o s' T' := by
  obtain ⟨o, s', T', hok, -⟩ := move_ok_at dflt h k p j q hs
  exact ⟨o, s', T', hok⟩

/-! ### Assignment from the node itself or from an ancestor -/

theorem subAt_append (q : List Bool) : ∀ (r : List Bool) (t : Tree α), subAt t (q ++ r) = subAt (subAt t q) r := by
  induction q with
  | nil => intro r t; cases t <;> rfl
  | cons b q ih =>
    intro r t
    cases t with
    | nil => cases r <;> rfl
    | node i p v h l r' => exact ih r _

theorem subAt_putAt_prefix (q : List Bool) : ∀ (r : List Bool) (t u : Tree α), subAt t q ≠ .nil →
    subAt (putAt t (q ++ r) u) q = putAt (subAt t q) r u := by
  induction q with
  | nil =>
    intro r t u _
    rw [List.nil_append]
    have h1 : subAt t [] = t := by cases t <;> rfl
    rw [h1]
    cases putAt t r u <;> rfl
  | cons b q ih =>
    intro r t u hne
    cases t with
    | nil => exact absurd rfl hne
    | node i p v h l r' => cases b <;> exact ih r _ u hne

/-- Setting the parent of any allocated node, if there is one. -/
theorem setPar_any {s : St α} (p q : Ptr) (hp : ∀ l, p = some l → ∃ c, s.mem l = some c) :
    ∃ s', ((match p with
      | some l => change s l fun c => { c with par := q }
      | none => .ok s) : Res (St α)) = .ok s' ∧ s'.roots = s.roots ∧ s'.next = s.next ∧
      (∀ j, p ≠ some j → s'.mem j = s.mem j) ∧
      ∀ j c, s.mem j = some c → ∃ c', s'.mem j = some c' ∧ c'.left = c.left ∧ c'.right = c.right := by
  cases p with
  | none => exact ⟨s, rfl, rfl, rfl, fun _ _ => rfl, fun j c h => ⟨c, h, rfl, rfl⟩⟩
  | some l =>
    obtain ⟨c, hc⟩ := hp l rfl
    refine ⟨s.set l { c with par := q }, by simp only [change_eq hc], rfl, rfl, fun j hj => ?_, fun j c' hj => ?_⟩
    · exact mem_set_ne _ (fun e => hj (by rw [e])) _
    · by_cases hjl : j = l
      · subst hjl
        rw [hc] at hj
        injection hj with hj
        subst hj
        exact ⟨_, mem_set_self _ _ _, rfl, rfl⟩
      · exact ⟨c', by rw [mem_set_ne _ hjl, hj], rfl, rfl⟩

theorem ptr_mem {t : Tree α} {i : Nat} (h : ptr t = some i) : i ∈ ids t := by
  cases t with
  | nil => cases h
  | node j p v hh l r => simp only [ptr_node, Option.some.injEq] at h; simp [ids, h]

/-- The move assignment, after its `clear()`, from a node that contains the target. -/
theorem move_up_rep {s : St α} {i : Nat} {p : Ptr} {v : α} {h : Nat} {si : Nat} {sp : Ptr} {sv : α} {sh : Nat}
    {sl sr : Tree α} {fuel : Nat} (hi : s.mem i = some ⟨p, v, h, none, none⟩) (hrs : Rep s.mem (.node si sp sv sh sl sr))
    (hn : (ids (.node si sp sv sh sl sr)).Nodup) (hmem : i ∈ ids (.node si sp sv sh sl sr)) :
    ∃ s', moveNode fuel s i si = .ok s' ∧ s'.mem si = some ⟨none, sv, sh, none, none⟩ ∧ s'.roots = s.roots ∧ s'.next = s.next ∧
      (∀ j, j ∉ ids (.node si sp sv sh sl sr) → s'.mem j = s.mem j) ∧ ∃ c, s'.mem i = some c := by
  obtain ⟨n1, n2, n3, n4, n5⟩ := nodup_node.1 hn
  obtain ⟨hs, hl, hrr⟩ := hrs
  by_cases hne : i = si
  · subst hne
    rw [hs] at hi
    simp only [Option.some.injEq, Cell.mk.injEq] at hi
    obtain ⟨rfl, rfl, rfl, hl0, hr0⟩ := hi
    rw [hl0, hr0] at hs
    refine ⟨s.set i ⟨none, sv, sh, none, none⟩, ?_, mem_set_self _ _ _, rfl, rfl, fun j hj => mem_set_ne _ (by
      simp only [ids, List.mem_cons, not_or] at hj; exact hj.1) _, _, mem_set_self _ _ _⟩
    simp only [moveNode, clearNode_leaf fuel hs, Res.bind_ok, cell_eq hs, change_eq hs, cell_eq (mem_set_self _ _ _),
      change_eq (mem_set_self _ _ _), set_set]
  · have hs1 : ∀ c, (s.set i c).mem si = some ⟨sp, sv, sh, ptr sl, ptr sr⟩ := fun c => by rw [mem_set_ne _ (Ne.symm hne), hs]
    generalize hs4 : (s.set i ⟨p, v, h, ptr sl, ptr sr⟩).set si ⟨none, sv, sh, none, none⟩ = s4
    have hi4 : s4.mem i = some ⟨p, v, h, ptr sl, ptr sr⟩ := by rw [← hs4, mem_set_ne _ hne, mem_set_self]
    have hsi4 : s4.mem si = some ⟨none, sv, sh, none, none⟩ := by rw [← hs4, mem_set_self]
    have hal : ∀ j c, s.mem j = some c → ∃ c', s4.mem j = some c' := by
      intro j c hj
      by_cases h1 : j = si
      · rw [h1]; exact ⟨_, hsi4⟩
      · by_cases h2 : j = i
        · rw [h2]; exact ⟨_, hi4⟩
        · exact ⟨c, by rw [← hs4, mem_set_ne _ h1, mem_set_ne _ h2, hj]⟩
    obtain ⟨s5, e5, q5, x5, f5, k5⟩ := setPar_any (s := s4) (ptr sl) (some i) (fun l hl' => by
      obtain ⟨c, hc⟩ := hl.some (ptr_mem hl')
      exact hal l c hc)
    obtain ⟨c5, hi5, hl5, hr5⟩ := k5 i _ hi4
    obtain ⟨s6, e6, q6, x6, f6, k6⟩ := setPar_any (s := s5) (ptr sr) (some i) (fun r hr' => by
      obtain ⟨c, hc⟩ := hrr.some (ptr_mem hr')
      obtain ⟨c, hc⟩ := hal r c hc
      obtain ⟨c', hc', -⟩ := k5 r c hc
      exact ⟨c', hc'⟩)
    obtain ⟨c6, hi6, -, -⟩ := k6 i _ hi5
    have hsi6 : s6.mem si = some ⟨none, sv, sh, none, none⟩ := by
      rw [f6 si fun e => n2 (ptr_mem e), f5 si fun e => n1 (ptr_mem e), hsi4]
    refine ⟨s6.set i { c6 with val := sv }, ?_, by rw [mem_set_ne _ (Ne.symm hne), hsi6], ?_, ?_, fun j hj => ?_, _, mem_set_self _ _ _⟩
    · simp only [moveNode, clearNode_leaf fuel hi, Res.bind_ok, cell_eq hs, change_eq hi, cell_eq (hs1 _), change_eq (mem_set_self _ _ _),
        set_set, change_eq (hs1 _), hs4, cell_eq hi4]
      refine (congrArg (· >>= _) e5).trans ?_
      simp only [Res.bind_ok, cell_eq hi5, hr5]
      refine (congrArg (· >>= _) e6).trans ?_
      simp only [Res.bind_ok, cell_eq hsi6, change_eq hi6]
    · have : (s6.set i { c6 with val := sv }).roots = s6.roots := rfl
      rw [this, q6, q5, ← hs4]; rfl
    · have : (s6.set i { c6 with val := sv }).next = s6.next := rfl
      rw [this, x6, x5, ← hs4]; rfl
    · have hji : j ≠ i := by rintro rfl; exact hj hmem
      simp only [ids, List.mem_cons, List.mem_append, not_or] at hj
      rw [mem_set_ne _ hji, f6 j fun e => hj.2.2 (ptr_mem e), f5 j fun e => hj.2.1 (ptr_mem e), ← hs4, mem_set_ne _ hj.1, mem_set_ne _ hji]

theorem move_up_ok (dflt : α) {s : St α} {T : Nat → Tree α} (h : Inv s T) (k : Nat) (q r : List Bool) :
    ∃ o s' T', StepOk dflt s T (.moveAssign k (q ++ r) k q) o s' T' := by
  have hins : ¬ NodeSane (.moveAssign k (q ++ r) k q : BOp α) := fun hs => (hs rfl).2 (List.prefix_append q r)
  have hty : subAt (T k) (q ++ r) = .nil → Tidy s (.moveAssign k (q ++ r) k q) := fun ht _ => by
    rw [h.root, follow_rep _ (h.rep k), ht]; rfl
  have hop : bstep dflt s (.moveAssign k (q ++ r) k q) = match ptr (subAt (T k) q) with
      | some src => (match ptr (subAt (T k) (q ++ r)) with
        | some dst => (do let s ← moveNode s.fuel s dst src; .ok (.unit, s))
        | none => .ok (.thrown, s))
      | none => .ok (.thrown, s) := by
    simp only [bstep, onNode_rep h]
  cases htj : subAt (T k) q with
  | nil =>
    rw [htj] at hop
    exact ⟨_, s, T, hop, h, fun hc => absurd hc hins, fun _ h => h, fun hc => absurd hc hins, fun _ _ => rfl, fun _ h => h,
      fun hn => absurd (hty (by rw [subAt_append, htj]; cases r <;> rfl)) hn⟩
  | node si sp sv sh sl sr =>
    cases htk : subAt (T k) (q ++ r) with
    | nil =>
      rw [htj, htk] at hop
      exact ⟨_, s, T, hop, h, fun hc => absurd hc hins, fun _ h => h, fun hc => absurd hc hins, fun _ _ => rfl, fun _ h => h,
        fun hn => absurd (hty htk) hn⟩
    | node i ip v hh l' r' =>
      rw [htj, htk] at hop
      simp only [ptr_node] at hop
      have hrk : Rep s.mem (.node i ip v hh l' r') := htk ▸ rep_subAt _ (h.rep k)
      have hnk : (ids (.node i ip v hh l' r')).Nodup := htk ▸ nodup_subAt _ (h.nodup k)
      have hfu : (ids (.node i ip v hh l' r')).length ≤ s.fuel := by
        have := h.fuel k (q ++ r)
        rw [htk] at this
        rw [ids_length]; omega
      obtain ⟨s1, e1, l1, x1⟩ := clear_loc hrk hnk h.fresh hfu
      have h1 := l1.inv h htk
      generalize hT1 : upd T k (putAt (T k) (q ++ r) (.node i ip v hh .nil .nil)) = T1 at h1
      have hsub : subAt (T1 k) q = putAt (subAt (T k) q) r (.node i ip v hh .nil .nil) := by
        rw [← hT1, upd_self, subAt_putAt_prefix _ _ _ _ (by rw [htj]; simp)]
      have hptr : ptr (subAt (T1 k) q) = some si := by
        rw [hsub, ptr_putAt r, htj, ptr_node]
        rw [← subAt_append, htk]; rfl
      have hmem : i ∈ ids (subAt (T1 k) q) := by
        rw [hsub]
        exact mem_putAt_new r (by rw [← subAt_append, htk]; simp) (by simp [ids])
      have hr1 := rep_subAt q (h1.rep k)
      have hn1 := nodup_subAt q (h1.nodup k)
      cases htj1 : subAt (T1 k) q with
      | nil => rw [htj1] at hptr; cases hptr
      | node si' sp' sv' sh' sl' sr' =>
        rw [htj1] at hptr hmem hr1 hn1
        simp only [ptr_node, Option.some.injEq] at hptr
        subst hptr
        obtain ⟨s', e', m', q', n', f', ci, hci⟩ := move_up_rep (fuel := s.fuel) l1.rep.1 hr1 hn1 hmem
        have erun : moveNode s.fuel s i si' = .ok s' := by
          rw [← e']
          unfold moveNode
          rw [e1, clearNode_leaf s.fuel l1.rep.1]
        rw [erun] at hop
        refine ⟨_, s', upd T1 k (putAt (T1 k) q (.node si' none sv' sh' .nil .nil)), hop, ?_, fun hc => absurd hc hins, fun ht hl a c hc => ?_,
          fun hc => absurd hc hins, fun a ha => by
            simp only [bnames, List.mem_cons, not_or] at ha
            rw [upd_ne _ ha.1, ← hT1, upd_ne _ ha.1], fun a ha => ?_, fun hn => ?_⟩
        rotate_left
        · have hr : r = [] := by
            by_contra hr
            have := ht ⟨rfl, List.prefix_append q r, fun e => hr (by simpa using e)⟩
            rw [h.root, follow_rep _ (h.rep k), htk] at this
            cases this
          subst hr
          have hl1 := l1.noLeak hl htk (by simp)
          rw [hT1] at hl1
          rw [htj] at hsub
          have hleaf : (Tree.node si' sp' sv' sh' sl' sr' : Tree α) = .node i ip v hh .nil .nil := by rw [← htj1, hsub]; rfl
          by_cases hai : a = si'
          · exact ⟨k, by rw [upd_self, hai]; exact mem_putAt_new q (by rw [htj1]; simp) (by simp [ids])⟩
          · have hns : a ∉ ids (.node si' sp' sv' sh' sl' sr') := by
              cases hleaf
              simpa [ids] using hai
            rw [f' a hns] at hc
            obtain ⟨m, hm⟩ := hl1 a c hc
            exact ⟨m, upd_mem_old _ hm (by rw [htj1]; exact hns)⟩
        · have ha1 := l1.lost h htk a ha
          rw [hT1] at ha1
          obtain ⟨⟨c, hc⟩, ha1⟩ := ha1
          have hns : a ∉ ids (.node si' sp' sv' sh' sl' sr') := fun hx => ha1 k (mem_subAt q (htj1 ▸ hx))
          refine ⟨⟨c, by rw [f' a hns, hc]⟩, fun m hm => ?_⟩
          rcases upd_mem h1 hm with h2 | ⟨h2, -⟩
          · simp only [ids, List.append_nil, List.mem_singleton] at h2
            exact hns (by simp [ids, h2])
          · exact ha1 m h2
        · have hb : Below k q k (q ++ r) := by
            by_contra hb
            exact hn fun h => absurd h hb
          have hne : i ≠ si' := by
            rintro rfl
            have := subAt_inj (α := α) q (h.nodup k) (path' := q ++ r) (i := i) (by rw [htj]; rfl) (by rw [htk]; rfl)
            exact hb.2.2 this
          refine ⟨i, ⟨ci, hci⟩, fun m hm => ?_⟩
          rcases upd_mem h1 hm with h2 | ⟨h2, h3⟩
          · simp only [ids, List.append_nil, List.mem_singleton] at h2
            exact hne h2
          · rw [htj1] at h3
            exact h3 hmem
        refine h1.local (by rw [htj1]; rfl) ⟨m', trivial, trivial⟩ (by simp [ids]) q' (fun a ha _ _ => f' a (htj1 ▸ ha)) (fun a ha => ?_)
          (fun a ha => ?_)
        · left
          simp only [ids, List.append_nil, List.mem_singleton] at ha
          rw [htj1, ha]; simp [ids]
        · rw [n'] at ha
          rw [f' a, h1.fresh a ha]
          intro hc
          have := h1.lt (k := k) (mem_subAt q (htj1 ▸ hc))
          omega

theorem assign_self_ok (dflt : α) {s : St α} {T : Nat → Tree α} (h : Inv s T) (k : Nat) (p : List Bool) :
    ∃ o s' T', StepOk dflt s T (.assign k p k p) o s' T' := by
  have hins : ¬ NodeSane (.assign k p k p : BOp α) := fun hs => (hs rfl).1 (List.prefix_refl p)
  have hop : bstep dflt s (.assign k p k p) = match ptr (subAt (T k) p) with
      | some src => (do let s ← copyNode dflt s.fuel s src src; .ok (.unit, s))
      | none => .ok (.thrown, s) := by
    simp only [bstep, onNode_rep h]
    cases ptr (subAt (T k) p) <;> rfl
  cases ht : subAt (T k) p with
  | nil =>
    rw [ht] at hop
    exact ⟨_, s, T, hop, h, fun hc => absurd hc hins, fun _ h => h, fun hc => absurd hc hins, fun _ _ => rfl, fun _ h => h,
      fun hn => absurd trivial hn⟩
  | node i ip v hh l r =>
    rw [ht] at hop
    have hfu := h.fuel k p
    rw [ht] at hfu
    obtain ⟨s1, e1, l1, x1⟩ := clear_loc (fuel := s.next) (ht ▸ rep_subAt _ (h.rep k)) (ht ▸ nodup_subAt _ (h.nodup k)) h.fresh (by
      rw [ids_length]; unfold St.fuel at hfu; omega)
    have l2 := l1.trans h.fresh (setVal_loc l1.rep l1.nodup l1.fresh v)
    have hi1 : s1.mem i = some ⟨ip, v, hh, none, none⟩ := l1.rep.1
    refine ⟨.unit, _, _, ?_, l2.inv h ht, fun hc => absurd hc hins, fun _ hn => l2.noLeak hn ht (by simp), fun hc => absurd hc hins,
      fun a ha => upd_ne _ (by simp only [bnames, List.mem_cons, not_or] at ha; exact ha.1) _, l2.lost h ht, fun hn => absurd trivial hn⟩
    rw [hop]
    simp only [ptr_node, St.fuel, copyNode, e1, Res.bind_ok, cell_eq hi1, change_eq hi1]
    rfl

/-! ### The other operations -/

theorem addRoot_eq (s : St α) (k : Nat) (x : α) : addRoot s.fuel s k (.val x) = (do
    let s ← deleteRoot s k
    .ok ((alloc s none x).2.setRoot k (some s.next))) := by
  unfold addRoot deleteRoot
  cases s.roots k with
  | none => rfl
  | some r =>
    simp only
    cases deleteNode s.fuel s r <;> rfl

theorem parents_copy (t : Tree α) : ∀ par next, ParentsExact par (t.copy par next).1 := by
  induction t with
  | nil => intro _ _; trivial
  | node a b c d e f ihe ihf => intro par next; exact ⟨rfl, ihe _ _, ihf _ _⟩

theorem upd_upd (T : Nat → Tree α) (k : Nat) (t u : Tree α) : upd (upd T k t) k u = upd T k u := by
  funext j; by_cases hj : j = k <;> simp [upd, hj]

theorem parents_upd {T : Nat → Tree α} (hp : ∀ k, ParentsExact none (T k)) (k : Nat) {t : Tree α} (ht : ParentsExact none t) (j : Nat) :
    ParentsExact none (upd T k t j) := by
  by_cases hj : j = k
  · subst hj; rwa [upd_self]
  · rw [upd_ne _ hj]; exact hp j

theorem ptr_erase {t : Tree α} : ptr t = none ↔ erase t = .nil := by cases t <;> simp [erase]

theorem bstep_ok (dflt : α) {s : St α} {T : Nat → Tree α} (h : Inv s T) (op : BOp α) (hs : NodeSafe op) :
    ∃ o s' T', StepOk dflt s T op o s' T' := by
  have sub : ∀ {k path i p v hh l r}, subAt (T k) path = .node i p v hh l r → Rep s.mem (.node i p v hh l r) ∧
      (ids (.node i p v hh l r)).Nodup ∧ (ids (.node i p v hh l r)).length < s.fuel := by
    intro k path i p v hh l r ht
    refine ⟨ht ▸ rep_subAt path (h.rep k), ht ▸ nodup_subAt path (h.nodup k), ?_⟩
    rw [ids_length, ← ht]
    exact h.fuel k path
  cases op with
  | addRoot k x =>
    obtain ⟨s1, e1, i1, x1, m1, l1⟩ := deleteRoot_inv h k
    have hframe : ∀ j, j ∉ ids (upd T k .nil k) → j ∉ ids (.node s1.next none x 1 .nil .nil : Tree α) →
        ((alloc s1 none x).2.setRoot k (some s1.next)).mem j = s1.mem j := fun j _ hj =>
      mem_alloc_ne _ _ _ (by simpa [ids] using hj)
    refine ⟨.unit, (alloc s1 none x).2.setRoot k (some s1.next), upd (upd T k .nil) k (.node s1.next none x 1 .nil .nil), ?_, ?_,
      fun _ _ => ?_, fun _ hn => (l1.1 hn).update k _ hframe (by simp [ids]), fun _ _ hp => ?_, fun a ha => ?_, fun a ha => ?_, fun hn => absurd trivial hn⟩
    · simp only [bstep, addRoot_eq, e1, Res.bind_ok]
    · refine i1.update k _ ⟨mem_alloc_self _ _ _, trivial, trivial⟩ (by simp [ids]) rfl hframe (fun i hi => ?_) ?_
      · simp only [ids, List.append_nil, List.mem_singleton] at hi
        right
        simp only [next_setRoot, alloc]
        omega
      · simp only [next_setRoot, alloc]
        omega
    · simp only [bspec, upd_upd, erase_upd, erase]
    · rw [upd_upd]
      exact parents_upd hp k ⟨rfl, trivial, trivial⟩
    · rw [upd_upd]
      exact upd_ne _ (by simpa [bnames] using ha) _
    · exact Lost.update i1 k _ hframe (by simp [ids]) a (l1.2 a ha)
  | addLeft k path x =>
    refine onNode_ok dflt h _ k path _ _ rfl trivial rfl rfl fun i p v hh l r ht => ?_
    obtain ⟨g1, g2, g3⟩ := sub ht
    obtain ⟨s', u, e, hl, hu⟩ := addLeft_loc g1 g2 h.fresh x
    refine ⟨s', u, ?_, hl, ?_⟩
    · simp only [e, Res.bind_ok]
      cases l <;> rfl
    · rw [hu]; cases l <;> rfl
  | addRight k path x =>
    refine onNode_ok dflt h _ k path _ _ rfl trivial rfl rfl fun i p v hh l r ht => ?_
    obtain ⟨g1, g2, g3⟩ := sub ht
    obtain ⟨s', u, e, hl, hu⟩ := addRight_loc g1 g2 h.fresh x
    refine ⟨s', u, ?_, hl, ?_⟩
    · simp only [e, Res.bind_ok]
      cases r <;> rfl
    · rw [hu]; cases r <;> rfl
  | deleteChild k path dir =>
    refine onNode_ok dflt h _ k path _ _ rfl trivial rfl rfl fun i p v hh l r ht => ?_
    obtain ⟨g1, g2, g3⟩ := sub ht
    match dir with
    | 0 =>
      obtain ⟨s', e, hl, -⟩ := deleteLeft_loc g1 g2 h.fresh (Nat.le_of_lt g3)
      refine ⟨s', _, ?_, hl, ?_⟩
      · simp only [e, Res.bind_ok]
        cases l <;> rfl
      · cases l <;> rfl
    | 1 =>
      obtain ⟨s', e, hl, -⟩ := deleteRight_loc g1 g2 h.fresh (Nat.le_of_lt g3)
      refine ⟨s', _, ?_, hl, ?_⟩
      · simp only [e, Res.bind_ok]
        cases r <;> cases l <;> rfl
      · cases r <;> cases l <;> rfl
    | dir + 2 =>
      exact ⟨s, _, by simp only [deleteChild, cell_eq g1.1, Res.bind_ok], Loc.refl g1 g2 h.fresh, rfl⟩
  | swap k path dir =>
    refine onNode_ok dflt h _ k path _ _ rfl trivial rfl rfl fun i p v hh l r ht => ?_
    obtain ⟨g1, g2, g3⟩ := sub ht
    obtain ⟨s', u, e, hl, hu⟩ := swap_loc g1 g2 h.fresh dir
    refine ⟨s', u, ?_, hl, ?_⟩
    · simp only [e, Res.bind_ok]
      match dir with
      | 0 => cases l <;> rfl
      | 1 => cases r <;> cases l <;> rfl
      | dir + 2 => rfl
    · rw [hu]
      match dir with
      | 0 => cases l <;> rfl
      | 1 => cases r <;> cases l <;> rfl
      | dir + 2 => rfl
  | setValue k path x =>
    refine onNode_ok dflt h _ k path _ _ rfl trivial rfl rfl fun i p v hh l r ht => ?_
    obtain ⟨g1, g2, g3⟩ := sub ht
    exact ⟨_, _, by simp only [setValue, change_eq g1.1, Res.bind_ok], setVal_loc g1 g2 h.fresh x, rfl⟩
  | clearNode k path =>
    refine onNode_ok dflt h _ k path _ _ rfl trivial rfl rfl fun i p v hh l r ht => ?_
    obtain ⟨g1, g2, g3⟩ := sub ht
    obtain ⟨s', e, hl, -⟩ := clear_loc g1 g2 h.fresh (Nat.le_of_lt g3)
    exact ⟨s', _, by simp only [e, Res.bind_ok], hl, rfl⟩
  | assign k p j q =>
    by_cases hsep : Separate k p j q
    case neg =>
      have : k = j ∧ p = q := by
        simp only [Separate, Classical.not_imp, not_and_or, not_not] at hsep
        obtain ⟨e, hsep⟩ := hsep
        refine ⟨e, ?_⟩
        obtain ⟨h1, h2⟩ := hs
        by_contra hne
        rcases hsep with h3 | h3
        · exact h1 ⟨e, h3, hne⟩
        · exact h2 ⟨e.symm, h3, Ne.symm hne⟩
      obtain ⟨rfl, rfl⟩ := this
      exact assign_self_ok dflt h k p
    replace hs := hsep
    have hty : Tidy s (.assign k p j q) := trivial
    have hop : bstep dflt s (.assign k p j q) = match ptr (subAt (T j) q) with
        | some src => (match ptr (subAt (T k) p) with
          | some dst => (do let s ← copyNode dflt s.fuel s dst src; .ok (.unit, s))
          | none => .ok (.thrown, s))
        | none => .ok (.thrown, s) := by
      simp only [bstep, onNode_rep h]
    cases htj : subAt (T j) q with
    | nil =>
      rw [htj] at hop
      refine ⟨_, s, T, hop, h, fun _ _ => ?_, fun _ h => h, fun _ _ h => h, fun _ _ => rfl, fun _ h => h, fun hn => absurd hty hn⟩
      simp only [bspec, at_nil.2 htj]
    | node si sp sv sh sl sr =>
      cases htk : subAt (T k) p with
      | nil =>
        rw [htj, htk] at hop
        refine ⟨_, s, T, hop, h, fun _ _ => ?_, fun _ h => h, fun _ _ h => h, fun _ _ => rfl, fun _ h => h, fun hn => absurd hty hn⟩
        simp only [bspec, at_nil.2 htk, at_node htj]
      | node i ip v hh l r =>
        rw [htj, htk] at hop
        simp only [ptr_node] at hop
        obtain ⟨g1, g2, g3⟩ := sub htk
        obtain ⟨g4, g5, g6⟩ := sub htj
        obtain ⟨s', u, e, hl, hu⟩ := assign_loc dflt g1 g2 h.fresh g3 g4
          (fun a ha => by rw [← htk]; exact sep_disj h hs (htj ▸ ha)) (by rw [ids_length] at g6; omega)
        rw [e] at hop
        refine ⟨_, s', _, hop, hl.inv h htk, fun _ _ => ?_, fun _ hn => hl.noLeak hn htk (by simp),
          fun _ _ hp => hl.parents hp htk, fun a ha => upd_ne _ (by simp only [bnames, List.mem_cons, not_or] at ha; exact ha.1) _,
          hl.lost h htk, fun hn => absurd trivial hn⟩
        simp only [bspec, at_node htj, at_node htk, erase_upd, erase_putAt, hu, erase]
  | moveAssign k p j q =>
    by_cases hsep : Separate k p j q
    · exact move_ok dflt h k p j q hsep
    · have : k = j ∧ q <+: p := by
        simp only [Separate, Classical.not_imp, not_and_or, not_not] at hsep
        obtain ⟨e, hsep⟩ := hsep
        refine ⟨e, ?_⟩
        rcases hsep with h3 | h3
        · by_cases hpq : p = q
          · rw [hpq]; exact List.prefix_refl q
          · exact absurd ⟨e, h3, hpq⟩ hs
        · exact h3
      obtain ⟨rfl, r, rfl⟩ := this
      exact move_up_ok dflt h k q r
  | clear k =>
    obtain ⟨s', e1, i1, -, -, l1⟩ := deleteRoot_inv h k
    exact ⟨.unit, s', _, by simp only [bstep, e1, Res.bind_ok], i1, fun _ _ => by simp only [bspec, erase_upd, erase],
      fun _ => l1.1, fun _ _ hp => parents_upd hp k trivial, fun a ha => upd_ne _ (by simpa [bnames] using ha) _, l1.2, fun hn => absurd trivial hn⟩
  | copy k j =>
    obtain ⟨s', t', e1, i1, ⟨c1, c2⟩, l1, l2, l3⟩ := copyTree_inv dflt h k j
    refine ⟨.unit, s', _, by simp only [bstep, e1, Res.bind_ok], i1, fun _ ht => ?_,
      fun ht hn => l1 (ht.imp (fun e => ptr_none.1 (by rw [← h.root]; exact e)) fun e => ptr_none.1 (by rw [← h.root]; exact e)) hn,
      fun _ _ hp => parents_upd hp k ?_, fun a ha => upd_ne _ (by simp only [bnames, List.mem_cons, not_or] at ha; exact ha.1) _, l2,
      fun hn => l3 (fun e => hn (.inl (by rw [h.root, e]; rfl))) fun e => hn (.inr (by rw [h.root, e]; rfl))⟩
    · obtain ⟨h1, h2⟩ := ht
      obtain ⟨c3, c4⟩ := c1 h1
      simp only [bspec, erase_upd]
      by_cases hj : T j = .nil
      · rw [c3 hj, hj]
        have : erase (T k) = .nil := h2 (by simp only [hj, erase])
        rw [this]
        rfl
      · rw [c4 hj, erase_copy]
    · by_cases hkj : k = j
      · rcases c2 hkj with e | e
        · rw [e]; exact hp k
        · rw [e]; exact ⟨rfl, trivial, trivial⟩
      · by_cases hj : T j = .nil
        · rw [(c1 hkj).1 hj]; exact hp k
        · rw [(c1 hkj).2 hj]; exact parents_copy _ _ _
  | move k j =>
    obtain ⟨i1, l1, l2, l3⟩ := moveTree_inv h k j
    exact ⟨.unit, _, _, rfl, i1, fun _ _ => by simp only [bspec, erase_upd, erase], fun ht hn => l1 (ptr_none.1 (by rw [← h.root]; exact ht)) hn,
      fun _ _ hp => parents_upd (parents_upd hp k (hp j)) j trivial, fun a ha => by
        simp only [bnames, List.mem_cons, List.not_mem_nil, or_false, not_or] at ha
        rw [upd_ne _ ha.2, upd_ne _ ha.1], l2, fun hn => l3 fun e => hn (by simp only [Tidy]; rw [h.root, e]; rfl)⟩

end Verif.Mem
