import Verif.UnionFind.Props

/-!
What path compression does to the forest (C180), and exact versions of C16, C17 and C19: `insert` of `union_set_t`
never does what its description says, `acorn()` is right only as long as nothing was joined, and the calls of
`union_find_t` by set id are right only when the look-up of ids among the keys happens to agree with the sets.
-/

namespace Verif.UnionFind
open Spec

attribute [local irreducible] W

/-! ### Path compression -/

/-- `OnPath parent x y`: the walk from `x` along the parent cells passes `y` (`x` itself and the root included). -/
inductive Spec.OnPath (parent : List Nat) : Nat → Nat → Prop
  | here (x : Nat) : OnPath parent x x
  | up {x p y : Nat} (h : parent[x]? = some p) : OnPath parent p y → OnPath parent x y

theorem rd_ok {l : List Nat} {i v : Nat} : rd l i = .ok v ↔ l[i]? = some v := by
  unfold rd
  cases l[i]? <;> simp

/-- One level of `_find`, read off a call that returns. -/
theorem findFuel_step {f : Nat} {c c' : Core} {x root : Nat} (h : findFuel (f + 1) c x = .ok (c', root)) :
    ∃ p, c.parent[x]? = some p ∧
      ((x = p ∧ c' = c ∧ root = x) ∨
       (x ≠ p ∧ c.compress = false ∧ findFuel f c p = .ok (c', root)) ∨
       (x ≠ p ∧ c.compress = true ∧ ∃ c1, findFuel f c p = .ok (c1, root) ∧
        c'.parent = if root ≠ p then c1.parent.set x root else c1.parent)) := by
  unfold UnionFind.findFuel at h
  obtain ⟨p, h1, h⟩ := Res.bind_eq_ok.1 h
  obtain ⟨k, h2, h⟩ := Res.bind_eq_ok.1 h
  obtain ⟨k', h3, h⟩ := Res.bind_eq_ok.1 h
  refine ⟨p, rd_ok.1 h1, ?_⟩
  by_cases hp : x = p
  · rw [if_pos hp] at h
    injection h with h; injection h with ha hb
    exact .inl ⟨hp, ha.symm, hb.symm⟩
  · rw [if_neg hp] at h
    by_cases hc : c.compress = true
    · rw [if_pos hc] at h
      obtain ⟨⟨c1, root1⟩, h4, h⟩ := Res.bind_eq_ok.1 h
      simp only at h
      by_cases hr : root1 ≠ p
      · rw [if_pos hr] at h
        obtain ⟨pr, h6, h⟩ := Res.bind_eq_ok.1 h
        obtain ⟨rk, h7, h⟩ := Res.bind_eq_ok.1 h
        obtain ⟨c2, h5, h⟩ := Res.bind_eq_ok.1 h
        injection h with h; injection h with ha hb
        subst hb
        refine .inr (.inr ⟨hp, hc, c1, h4, ?_⟩)
        rw [if_pos hr, ← ha]
        unfold joinSet at h5
        obtain ⟨_, _, h5⟩ := Res.bind_eq_ok.1 h5
        obtain ⟨_, _, h5⟩ := Res.bind_eq_ok.1 h5
        obtain ⟨_, _, h5⟩ := Res.bind_eq_ok.1 h5
        injection h5 with h5
        rw [← h5]
        by_cases hgt : pr > 1
        · simp only [if_pos hgt]
        · simp only [if_neg hgt]
      · rw [if_neg hr] at h
        simp only [Res.bind_ok] at h
        injection h with h; injection h with ha hb
        subst hb
        refine .inr (.inr ⟨hp, hc, c1, h4, ?_⟩)
        rw [if_neg hr, ← ha]
    · rw [if_neg hc] at h
      exact .inr (.inl ⟨hp, by simpa using hc, h⟩)

theorem findFuel_lenP (f : Nat) : ∀ (c c' : Core) (x root : Nat), findFuel f c x = .ok (c', root) →
    c'.parent.length = c.parent.length := by
  induction f with
  | zero => intro c c' x root h; cases h
  | succ f ih =>
    intro c c' x root h
    obtain ⟨p, hp, ⟨_, hcc, _⟩ | ⟨_, _, hf⟩ | ⟨_, _, c1, hf, hc1⟩⟩ := findFuel_step h
    · rw [hcc]
    · exact ih _ _ _ _ hf
    · rw [hc1]
      split
      · rw [List.length_set]; exact ih _ _ _ _ hf
      · exact ih _ _ _ _ hf

/-- **C180** for the shared `_find`: a call with compression makes every node of the walk a child of the root and
leaves every other parent cell alone. -/
theorem findFuel_flat (f : Nat) : ∀ (c c' : Core) (x root : Nat), findFuel f c x = .ok (c', root) →
    c.compress = true → ∀ y,
      (OnPath c.parent x y → c'.parent[y]? = some root) ∧
      (¬ OnPath c.parent x y → c'.parent[y]? = c.parent[y]?) := by
  induction f with
  | zero => intro c c' x root h; cases h
  | succ f ih =>
    intro c c' x root h hc y
    obtain ⟨p, hp, ⟨hxp, hcc, hr⟩ | ⟨_, hcf, _⟩ | ⟨hxp, _, c1, hf, hc1⟩⟩ := findFuel_step h
    · subst hxp; subst hr; subst hcc
      refine ⟨fun ho => ?_, fun _ => rfl⟩
      have : ∀ a b, OnPath c'.parent a b → a = root → b = root := by
        intro a b hab
        induction hab with
        | here a => exact id
        | up hq _ ihq =>
          intro e
          rw [e, hp] at hq
          exact ihq (Option.some.inj hq).symm
      rw [this _ _ ho rfl]; exact hp
    · rw [hc] at hcf; cases hcf
    · have hlen := findFuel_lenP _ _ _ _ _ hf
      have hx : x < c1.parent.length := by
        rw [hlen]
        exact (List.getElem?_eq_some_iff.1 hp).1
      have hI := ih _ _ _ _ hf hc
      have hself : c'.parent[x]? = some root := by
        rw [hc1]
        by_cases hr : root ≠ p
        · rw [if_pos hr]; exact List.getElem?_set_self hx
        · rw [if_neg hr]
          have hrp : root = p := Decidable.not_not.1 hr
          by_cases ho : OnPath c.parent p x
          · exact (hI x).1 ho
          · rw [(hI x).2 ho, hp, hrp]
      have hother : ∀ z, z ≠ x → c'.parent[z]? = c1.parent[z]? := by
        intro z hz
        rw [hc1]
        by_cases hr : root ≠ p
        · rw [if_pos hr]; exact List.getElem?_set_ne (Ne.symm hz)
        · rw [if_neg hr]
      by_cases hy : y = x
      · subst hy
        exact ⟨fun _ => hself, fun hn => absurd (OnPath.here _) hn⟩
      · rw [hother y hy]
        refine ⟨fun ho => ?_, fun ho => (hI y).2 (fun hp' => ho (.up hp hp'))⟩
        cases ho with
        | here => exact absurd rfl hy
        | up hq ho' =>
          rw [hp] at hq
          rw [← Option.some.inj hq] at ho'
          exact (hI y).1 ho'

/-- Without compression `_find` changes nothing. -/
theorem findFuel_frozen (f : Nat) : ∀ (c c' : Core) (x root : Nat), findFuel f c x = .ok (c', root) →
    c.compress = false → c' = c := by
  induction f with
  | zero => intro c c' x root h; cases h
  | succ f ih =>
    intro c c' x root h hc
    obtain ⟨p, hp, ⟨_, hcc, _⟩ | ⟨_, _, hf⟩ | ⟨_, hct, _⟩⟩ := findFuel_step h
    · exact hcc
    · exact ih _ _ _ _ hf hc
    · rw [hc] at hct; cases hct

/-- **C180**: `find(x)` on an existing set.  With compression every set on the walk from `x` becomes a direct child of
the root that is returned, and all other parent cells keep their value; every later `find` of a set of that walk makes
at most one recursive call and returns the same root.  Without compression the object does not change at all. -/
theorem C180_find {s n E} (h : Reach s n E) (x : Nat) (hx : x < n) :
    ∃ s' root, s.find x = .ok (s', root) ∧
      (s.core.compress = true →
        (∀ y, (OnPath s.core.parent x y → s'.core.parent[y]? = some root) ∧
          (¬ OnPath s.core.parent x y → s'.core.parent[y]? = s.core.parent[y]?)) ∧
        (∀ y, OnPath s.core.parent x y → ∃ c', findFuel 2 s'.core y = .ok (c', root))) ∧
      (s.core.compress = false → s' = s) := by
  obtain ⟨r, ρ, hi, hk, _, _⟩ := h.inv
  obtain ⟨c', e, i', cc⟩ := hi.find x hx
  have ef : findFuel (s.core.parent.length + 1) s.core x = .ok (c', r x) := e
  have es : s.find x = .ok ({ s with core := c' }, r x) := by
    unfold USet.find USet.exists
    rw [hi.lenP]
    simp only [hx, decide_true, Bool.not_true, Bool.false_eq_true, if_false, e, Res.bind_ok]
  refine ⟨_, _, es, fun hc => ?_, fun hc => ?_⟩
  · have hflat := findFuel_flat _ _ _ _ _ ef hc
    refine ⟨hflat, fun y hy => ?_⟩
    have hpy : c'.parent[y]? = some (r x) := (hflat y).1 hy
    have hyn : y < n := by
      have := (List.getElem?_eq_some_iff.1 hpy).1
      rw [i'.lenP] at this; exact this
    have hroot := i'.root x hx
    obtain ⟨p, hp1, hp2, hp3, hp4, hp5⟩ := i'.par y hyn
    rw [hpy] at hp1
    have hpe : p = r x := (Option.some.inj hp1).symm
    have hry : r y = r x := by rw [← hp3, hpe]; exact hroot.2.1
    obtain ⟨ky, hky, _⟩ := i'.rd_rank y hyn
    obtain ⟨kr, hkr, _⟩ := i'.rd_rank (r x) hroot.1
    have e1 : rd c'.parent y = .ok (r x) := rd_ok.2 hpy
    have e2 : rd c'.parent (r x) = .ok (r x) := rd_ok.2 hroot.2.2
    have hstep : ∀ f, findFuel (f + 1) c' (r x) = .ok (c', r x) := by
      intro f
      unfold UnionFind.findFuel
      simp only [e2, hkr, Res.bind_ok, if_true]
    show ∃ c'', findFuel 2 c' y = .ok (c'', r x)
    unfold UnionFind.findFuel
    simp only [e1, hky, hkr, Res.bind_ok]
    by_cases hyr : y = r x
    · rw [if_pos hyr]; exact ⟨c', by rw [hyr]⟩
    · rw [if_neg hyr, hstep 0]
      by_cases hcc : c'.compress = true
      · rw [if_pos hcc]
        simp only [Res.bind_ok]
        rw [if_neg (fun h => h rfl)]
        exact ⟨_, rfl⟩
      · rw [if_neg hcc]; exact ⟨_, rfl⟩
  · rw [findFuel_frozen _ _ _ _ _ ef hc]

/-- Sets 0 … 3, joined to the chain 0 → 1 → 3 with 2 → 3: `find(0)` hangs 0 below 3 and leaves 2 alone. -/
def deep : USet := ⟨⟨[1, 3, 3, 3], [1, 2, 1, 4], true⟩, ⟨1, 4⟩⟩

theorem deep_reach : Reach deep 4 [(1, 3), (2, 3), (0, 1)] := by
  have h0 : Reach (USet.new 4 true) 4 [] := .new 4 true (by unfold W; decide)
  have h1 : Reach ⟨⟨[1, 1, 2, 3], [1, 2, 1, 1], true⟩, ⟨3, 4⟩⟩ 4 [(0, 1)] :=
    .join (s := USet.new 4 true) (res := true) true true 0 1 h0 (by decide +kernel)
  have h2 : Reach ⟨⟨[1, 1, 3, 3], [1, 2, 1, 2], true⟩, ⟨2, 4⟩⟩ 4 [(2, 3), (0, 1)] :=
    .join (res := true) true true 2 3 h1 (by decide +kernel)
  exact .join (res := true) true true 1 3 h2 (by decide +kernel)

example : ∃ s' root, deep.find 0 = .ok (s', root) ∧
    (∀ y, (OnPath deep.core.parent 0 y → s'.core.parent[y]? = some root) ∧
      (¬ OnPath deep.core.parent 0 y → s'.core.parent[y]? = deep.core.parent[y]?)) := by
  obtain ⟨s', root, h1, h2, _⟩ := C180_find deep_reach 0 (by decide)
  exact ⟨s', root, h1, (h2 rfl).1⟩
example : (deep.find 0).bind (fun p => .ok (p.1.core.parent, p.2)) = .ok ([3, 3, 3, 3], 3) := by decide +kernel

/-! ### C16: `insert` never keeps its promise -/

/-- What `insert(x)` promises when there were `n` sets and the pairs `E` were joined: `x` is a set of its own, the other
sets stay as they were (without `x`), and the counters say so. -/
structure Spec.Inserted (s' : USet) (n x : Nat) (E : List (Nat × Nat)) : Prop where
  present : s'.exists x = true
  alone : ∀ o y t res, y < n → y ≠ x → s'.same o y x = .ok (t, res) → res = false
  sizes : ∀ y t k, y < n → y ≠ x → s'.sizeOf y = .ok (t, k) → ClassSize (fun z => z < n ∧ z ≠ x) E y k
  count : ∀ m, ClassCount (fun z => z < n ∧ z ≠ x) E m → s'.disjoint = m + 1

theorem find_root {c : Core} {x k : Nat} (hp : c.parent[x]? = some x) (hr : c.rank[x]? = some k) :
    find c x = .ok (c, x) := by
  unfold UnionFind.find UnionFind.findFuel
  simp only [rd_ok.2 hp, rd_ok.2 hr, Res.bind_ok, if_true]

theorem find_child {c : Core} {x y k k' : Nat} (hxy : y ≠ x) (hp : c.parent[x]? = some x) (hr : c.rank[x]? = some k)
    (hp' : c.parent[y]? = some x) (hr' : c.rank[y]? = some k') :
    ∃ c', find c y = .ok (c', x) ∧ c'.parent = c.parent ∧ c'.rank.length = c.rank.length := by
  have hl : c.parent.length ≠ 0 := by
    have := (List.getElem?_eq_some_iff.1 hp).1; omega
  obtain ⟨m, hm⟩ := Nat.exists_eq_succ_of_ne_zero hl
  unfold UnionFind.find
  rw [hm]
  have hstep : findFuel (m + 1) c x = .ok (c, x) := by
    unfold UnionFind.findFuel
    simp only [rd_ok.2 hp, rd_ok.2 hr, Res.bind_ok, if_true]
  unfold UnionFind.findFuel
  simp only [rd_ok.2 hp', rd_ok.2 hr, rd_ok.2 hr', Res.bind_ok]
  rw [if_neg hxy, hstep]
  by_cases hcc : c.compress = true
  · rw [if_pos hcc]
    simp only [Res.bind_ok]
    rw [if_neg (fun h => h rfl)]
    exact ⟨_, rfl, rfl, by simp⟩
  · rw [if_neg hcc]; exact ⟨_, rfl, rfl, rfl⟩

/-- **C16 (exact)**: `insert(x)` breaks its description in every state and for every `x`: a new `x` is still missing
afterwards; for an existing `x` the result is never that of making `x` a set of its own (some other set still hangs
below it, or `size_of` still counts it, or `disjoint()` counts it twice), and never that of leaving the object as it was
(`disjoint()` changes). -/
theorem C16_never {s n E} (h : Reach s n E) (x : Nat) :
    ¬ Inserted (s.insert x).1 n x E ∧ (x < n → (s.insert x).1.disjoint ≠ s.disjoint) := by
  have hins := C16_insert_partial h x
  have he := h.inv.exists_iff x
  obtain ⟨r, ρ, hi, hk, hd, ha⟩ := h.inv
  by_cases hx : x < n
  swap
  · refine ⟨fun hI => ?_, fun h' => absurd h' hx⟩
    have := hI.present
    rw [hins.2.1 hx, he] at this
    simp [hx] at this
  obtain ⟨hP, hR, hD, hA⟩ := hins.2.2 hx
  have hW1 : 1 < W := by unfold W; decide
  have hdn : s.disjoint ≤ n := by unfold USet.disjoint; rw [hd]; exact nroots_le n r
  have hnW := hi.nW
  have hD' : (s.insert x).1.disjoint ≠ s.disjoint := by
    rw [hD]
    by_cases hw : s.disjoint + 1 < W
    · rw [Nat.mod_eq_of_lt hw]; omega
    · have : s.disjoint + 1 = W := by omega
      rw [this, Nat.mod_self]; omega
  refine ⟨fun hI => ?_, fun _ => hD'⟩
  have hPl := hi.lenP
  have hRl := hi.lenR
  have hpx : (s.insert x).1.core.parent[x]? = some x := by
    rw [hP]; exact List.getElem?_set_self (by omega)
  have hrx : (s.insert x).1.core.rank[x]? = some 1 := by
    rw [hR]; exact List.getElem?_set_self (by omega)
  have hpy : ∀ y, y ≠ x → (s.insert x).1.core.parent[y]? = s.core.parent[y]? := by
    intro y hy; rw [hP]; exact List.getElem?_set_ne (Ne.symm hy)
  have hry : ∀ y, y ≠ x → (s.insert x).1.core.rank[y]? = s.core.rank[y]? := by
    intro y hy; rw [hR]; exact List.getElem?_set_ne (Ne.symm hy)
  have hlen : (s.insert x).1.core.parent.length = n := by rw [hP]; simpa using hPl
  have hex : ∀ y, y < n → (s.insert x).1.exists y = true := by
    intro y hy; unfold USet.exists; rw [hlen]; simpa using hy
  by_cases hchild : ∃ y, y < n ∧ y ≠ x ∧ s.core.parent[y]? = some x
  · -- a set below `x` is still connected with it
    obtain ⟨y, hyn, hyx, hpar⟩ := hchild
    obtain ⟨ky, hky, _⟩ := hi.rk y hyn
    obtain ⟨c1, e1, p1, l1⟩ := find_child hyx hpx hrx ((hpy y hyx).trans hpar) ((hry y hyx).trans hky)
    have hx1 : x < c1.rank.length := by rw [l1, hR]; simp; omega
    have e2 : find c1 x = .ok (c1, x) :=
      find_root (k := c1.rank[x]) (by rw [p1]; exact hpx) (List.getElem?_eq_getElem hx1)
    have hs : (s.insert x).1.same true y x = .ok ({ (s.insert x).1 with core := c1 }, true) := by
      unfold USet.same UnionFind.sameSet UnionFind.find2
      rw [hex y hyn, hex x hx, if_neg hyx]
      simp only [Bool.and_true, if_true, e1, e2, Res.bind_ok, decide_true]
    have := hI.alone true y _ _ hyn hyx hs
    cases this
  · -- nothing hangs below `x`
    have hleaf : ∀ y, y < n → y ≠ x → s.core.parent[y]? ≠ some x := fun y h1 h2 h3 => hchild ⟨y, h1, h2, h3⟩
    by_cases hroot : r x = x
    · -- `x` is alone: the classes stay the same, `disjoint()` does not
      have halone : ∀ d y, ρ x - ρ y ≤ d → y < n → r y = x → y = x := by
        intro d
        induction d with
        | zero =>
          intro y hy hyn hr
          by_cases hne : y = x
          · exact hne
          · have := hi.mono y hyn (by rw [hr]; exact hne)
            rw [hr] at this; omega
        | succ d ih =>
          intro y hy hyn hr
          by_cases hne : y = x
          · exact hne
          · obtain ⟨p, hp1, hp2, hp3, hp4, hp5⟩ := hi.par y hyn
            have hpy' : p ≠ y := by
              intro e
              have := hp4 e
              rw [hr] at this; exact hne this.symm
            have hlt := hp5 hpy'
            have hm := hi.mono y hyn (by rw [hr]; exact hne)
            rw [hr] at hm
            have := ih p (by omega) hp2 (hp3.trans hr)
            rw [this] at hp1
            exact absurd hp1 (hleaf y hyn hne)
      have hcount : ClassCount (fun z => z < n ∧ z ≠ x) E (nroots n r - 1) := by
        have hnd : ((List.range n).filter (fun y => decide (r y = y))).Nodup := List.nodup_range.filter _
        have hmem : x ∈ (List.range n).filter (fun y => decide (r y = y)) := by
          simp [hx, hroot]
        refine ⟨((List.range n).filter (fun y => decide (r y = y))).erase x, ?_, ?_, ?_, ?_⟩
        · refine List.Pairwise.imp_of_mem ?_ (hnd.erase x)
          intro a b ha' hb' hne hc
          have h1 := (List.mem_filter.1 (List.mem_of_mem_erase ha')).2
          have h2 := (List.mem_filter.1 (List.mem_of_mem_erase hb')).2
          simp at h1 h2
          exact hne (by rw [← h1, ← h2]; exact (hk a b).2 hc)
        · intro z hz
          have h1 := (hnd.mem_erase_iff).1 hz
          exact ⟨by simpa using (List.mem_filter.1 h1.2).1, h1.1⟩
        · rintro z ⟨hz, hzx⟩
          have hrz := hi.root z hz
          refine ⟨r z, (hnd.mem_erase_iff).2 ⟨?_, by simp [hrz.1, hrz.2.1]⟩, (hk _ _).1 hrz.2.1.symm⟩
          intro e
          exact hzx (halone _ z (Nat.le_refl _) hz e)
        · rw [List.length_erase_of_mem hmem, ← List.countP_eq_length_filter]; rfl
      have hpos : 0 < nroots n r := by
        unfold nroots
        rw [List.countP_pos_iff]
        exact ⟨x, by simpa using hx, by simpa using hroot⟩
      have h1 := hI.count _ hcount
      apply hD'
      rw [h1]
      unfold USet.disjoint
      rw [hd]; omega
    · -- the representative still counts `x`
      have hq := hi.root x hx
      have hsz := hi.size (r x) hq.1 hq.2.1
      have hfind : find (s.insert x).1.core (r x) = .ok ((s.insert x).1.core, r x) :=
        find_root ((hpy _ hroot).trans hq.2.2) ((hry _ hroot).trans hsz.1)
      have hso : (s.insert x).1.sizeOf (r x) = .ok ((s.insert x).1, csize n r (r x)) := by
        unfold USet.sizeOf USet.find
        rw [hex _ hq.1, hfind]
        simp only [Bool.not_true, Bool.false_eq_true, if_false, Res.bind_ok]
        rw [if_pos (by unfold notFound; omega), rd_ok.2 ((hry _ hroot).trans hsz.1)]
        rfl
      have hc1 := hI.sizes _ _ _ hq.1 hroot hso
      have hnd : ((List.range n).filter (fun y => decide (r y = r x))).Nodup := List.nodup_range.filter _
      have hmem : x ∈ (List.range n).filter (fun y => decide (r y = r x)) := by simp [hx]
      have hc2 : ClassSize (fun z => z < n ∧ z ≠ x) E (r x) (csize n r (r x) - 1) := by
        refine ⟨((List.range n).filter (fun y => decide (r y = r x))).erase x, hnd.erase x, fun z => ?_, ?_⟩
        · rw [hnd.mem_erase_iff]
          have hconn : Conn E z (r x) ↔ r z = r x := by
            rw [← hk z (r x), hq.2.1]
          rw [hconn]
          simp only [List.mem_filter, List.mem_range, decide_eq_true_eq]
          constructor
          · rintro ⟨h1, h2, h3⟩; exact ⟨⟨h2, h1⟩, h3⟩
          · rintro ⟨⟨h1, h2⟩, h3⟩; exact ⟨h2, h1, h3⟩
        · rw [List.length_erase_of_mem hmem, ← List.countP_eq_length_filter]; rfl
      have := ClassSize.unique hc1 hc2
      have hpos : 0 < csize n r (r x) := by
        have := Nat.two_pow_pos (ρ (r x)); omega
      omega

example : ¬ Inserted (ex1.insert 0).1 3 0 [(0, 1)] ∧ ¬ Inserted (ex1.insert 2).1 3 2 [(0, 1)] :=
  ⟨(C16_never ex1_reach 0).1, (C16_never ex1_reach 2).1⟩

/-- The promise can be kept: 1 is a set of its own after an insertion into a set of sets without it … -/
example : Inserted (USet.new 1 true) 0 0 [] where
  present := by decide
  alone := fun _ y _ _ h _ _ => absurd h (by omega)
  sizes := fun y _ _ h _ _ => absurd h (by omega)
  count := by
    rintro m ⟨l, _, h2, _, rfl⟩
    cases l with
    | nil => decide +kernel
    | cons a l => exact absurd (h2 a (List.mem_cons_self ..)).1 (by omega)

/-! ### C17: `acorn()` -/

/-- **C17 (exact)**: the number of sets without a parent is `disjoint()`, and `acorn()` equals it exactly as long as
no two different sets were joined. -/
theorem C17_exact {s n E} (h : Reach s n E) (hE : ∀ p ∈ E, p.1 < n ∧ p.2 < n) :
    Spec.parentless s = s.disjoint ∧ (s.acorn = Spec.parentless s ↔ ∀ p ∈ E, p.1 = p.2) := by
  have hpart := C17_acorn_partial h
  obtain ⟨r, ρ, hi, hk, hd, ha⟩ := h.inv
  have hpl : Spec.parentless s = nroots n r := by
    unfold Spec.parentless nroots
    rw [hi.lenP]
    apply List.countP_congr
    intro y hy
    have hyn : y < n := by simpa using hy
    simp only [decide_eq_true_eq]
    constructor
    · intro e
      obtain ⟨p, hp1, _, _, hp4, _⟩ := hi.par y hyn
      rw [e] at hp1
      exact hp4 (Option.some.inj hp1).symm
    · intro e
      have := (hi.root y hyn).2.2
      rw [e] at this; exact this
  refine ⟨by rw [hpl]; exact hd.symm, fun e => ?_, hpart.2⟩
  rw [hpart.1, hpl] at e
  have hall : ∀ y, y < n → r y = y := by
    have hfull : (List.range n).countP (fun y => decide (r y = y)) = (List.range n).length := by
      rw [List.length_range]; exact e.symm
    intro y hy
    simpa using List.countP_eq_length.1 hfull y (by simpa using hy)
  intro p hp
  have hpn := hE p hp
  have : r p.1 = r p.2 := (hk _ _).2 (.rel _ _ hp)
  rw [hall _ hpn.1, hall _ hpn.2] at this
  exact this

theorem Reach.pairs {s n E} (h : Reach s n E) : ∀ p ∈ E, p.1 < n ∧ p.2 < n := by
  induction h with
  | new => intro p hp; cases hp
  | resize size hs _ ih =>
    intro p hp
    have := ih p hp
    omega
  | insert x hx _ ih => exact ih
  | @join s n E s' res o1 o2 a b _ e ih =>
    intro p hp
    by_cases hab : a < n ∧ b < n
    · rw [if_pos hab] at hp
      rcases List.mem_cons.1 hp with rfl | hp
      · exact hab
      · exact ih p hp
    · rw [if_neg hab] at hp; exact ih p hp
  | same _ _ _ _ _ ih => exact ih
  | find _ _ _ ih => exact ih
  | sizeOf _ _ _ ih => exact ih

/-- **C17 (exact)**, over all histories. -/
theorem C17_iff {s n E} (h : Reach s n E) :
    Spec.parentless s = s.disjoint ∧ (s.acorn = Spec.parentless s ↔ ∀ p ∈ E, p.1 = p.2) := C17_exact h h.pairs

example : ¬ deep.acorn = Spec.parentless deep := by
  rw [(C17_iff deep_reach).2]
  intro h
  exact absurd (h (0, 1) (by decide)) (by decide)

/-! ### C19: calls by set id -/

/-- **C19 (exact)**: `find(id)` and `size_of(id)` are right for an id (found iff the set exists, no access out of
bounds) exactly when the look-up of the id among the *keys* gives the same answer as the existence of the set; so
`C19_ids_partial` cannot be extended to a single further id. -/
theorem C19_exact {T : Type} [DecidableEq T] {s : UF T} {K E} (h : UFReach s K E) (toKey : Nat → T) (i : Nat) :
    (∃ s' root, s.findId toKey i = .ok (s', root) ∧ (i < K.length → root < K.length) ∧
      (K.length ≤ i → root = notFound)) ↔ s.exists (toKey i) = s.existsSet i := by
  obtain ⟨r, ρ, hi⟩ := h.inv
  have hnW := hi.core.nW
  have hes : s.existsSet i = decide (i < K.length) := by unfold UF.existsSet; rw [hi.core.lenP]
  rw [hes]
  unfold UF.findId
  by_cases hk : s.exists (toKey i) = true
  · rw [hk]
    simp only [Bool.not_true, Bool.false_eq_true, if_false]
    by_cases hin : i < K.length
    · obtain ⟨c', e, i', _⟩ := hi.core.find i hin
      rw [e]
      simp only [Res.bind_ok, hin, decide_true, iff_true]
      exact ⟨_, _, rfl, fun _ => (i'.root i hin).1, fun h' => by omega⟩
    · have hub : UnionFind.find s.core i = .ub := by
        unfold UnionFind.find UnionFind.findFuel
        have : s.core.parent[i]? = none := List.getElem?_eq_none (by rw [hi.core.lenP]; omega)
        simp [rd, this]
      rw [hub]
      simp [hin]
  · have hk' : s.exists (toKey i) = false := by simpa using hk
    rw [hk']
    simp only [Bool.not_false, if_true]
    by_cases hin : i < K.length
    · simp only [hin, decide_true]
      constructor
      · rintro ⟨s', root, e, h1, _⟩
        injection e with e; injection e with _ e
        have := h1 trivial
        rw [← e] at this
        unfold notFound at this; omega
      · intro e; cases e
    · simp only [hin, decide_false, iff_true]
      exact ⟨s, notFound, rfl, fun h' => h'.elim, fun _ => rfl⟩

example : ¬ (∃ s' root, uf0.findId id 0 = .ok (s', root) ∧ (0 < 3 → root < 3) ∧ (3 ≤ 0 → root = notFound)) := by
  have h := C19_exact uf0_reach id 0
  intro hc
  exact absurd (h.1 hc) (by decide)

end Verif.UnionFind
