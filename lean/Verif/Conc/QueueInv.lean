import Verif.Conc.QueueModel

/-
Invariants of the message queue.
-/

namespace Verif.MsgQueue

variable {α : Type}

/-! ### Observations, in terms of the log only (oldest first) -/

/-- The messages received, in the order of insertion. -/
def received : List (Event α) → List α
  | [] => []
  | .pushed _ m :: l => received l ++ [m]
  | _ :: l => received l

/-- The messages given to `on_new_message`, in order. -/
def processed : List (Event α) → List α
  | [] => []
  | .processed m :: l => processed l ++ [m]
  | _ :: l => processed l

/-- The messages dropped by `clear`, in order. -/
def discarded : List (Event α) → List α
  | [] => []
  | .discarded m :: l => discarded l ++ [m]
  | _ :: l => discarded l

/-- Both, in order. -/
def removed : List (Event α) → List α
  | [] => []
  | .processed m :: l | .discarded m :: l => removed l ++ [m]
  | _ :: l => removed l

/-! ### Program counters -/

def WPc.owns : WPc α → Bool
  | .clearLoop | .clearRelease | .popTake | .popRelease _ => true
  | _ => false

def CPc.owns : CPc α → Bool
  | .pushBody _ | .pushRelease | .sizeRead | .sizeRelease _ | .emptyRead | .emptyRelease _ => true
  | _ => false

/-- The message taken out of the container, not yet given to `on_new_message`. -/
def WPc.inflight : WPc α → List α
  | .popRelease m | .handle m => [m]
  | _ => []

/-- The worker has seen a message that only it can take. -/
def WPc.sawMessage : WPc α → Bool
  | .innerDiscard | .popEnter | .popTake => true
  | _ => false

def WPc.clearing : WPc α → Bool
  | .clearFlag | .clearEnter | .clearLoop | .clearRelease => true
  | _ => false

/-- The worker is outside its main loop. -/
def WPc.outside : WPc α → Bool
  | .notStarted | .checkRunning | .onStart | .setRunning | .onStop | .finished => true
  | _ => false

def WPc.dead : WPc α → Bool
  | .throwing | .threw | .ub => true
  | _ => false

/-- At every `sawEmpty` of the log, everything received before had been processed or discarded. -/
def EmptyOk : List (Event α) → Prop
  | [] => True
  | .sawEmpty :: l => (received l).Perm (processed l ++ discarded l) ∧ EmptyOk l
  | _ :: l => EmptyOk l

def HasDiscard (log : List (Event α)) : Prop := ∃ t, Event.discardCall t ∈ log

structure Inv (s : St α) : Prop where
  wown    : s.wpc.owns = true ↔ s.mtx = some .worker
  cown    : ∀ t, (s.cpc t).owns = true ↔ s.mtx = some (.client t)
  perm    : (received s.log).Perm (processed s.log ++ discarded s.log ++ s.wpc.inflight ++ s.queue)
  saw     : s.wpc.sawMessage = true → s.queue ≠ []
  alive   : s.wpc.dead = false
  empty   : EmptyOk s.log
  out     : s.wpc.outside = true → s.running = false
  flag    : s.discard = true → HasDiscard s.log
  clear   : s.wpc.clearing = true → HasDiscard s.log
  disc    : discarded s.log ≠ [] → HasDiscard s.log

theorem HasDiscard.cons {log : List (Event α)} (e : Event α) (h : HasDiscard log) : HasDiscard (e :: log) := by
  obtain ⟨t, ht⟩ := h
  exact ⟨t, by simp [ht]⟩

theorem inv_init : Inv (init : St α) := by
  constructor <;> simp [init, WPc.owns, CPc.owns, received, processed, discarded, WPc.inflight, WPc.sawMessage, WPc.dead,
    EmptyOk, WPc.clearing]

/-- Steps of the worker that touch neither the container, nor the mutex, nor the log. -/
theorem inv_w {s : St α} (h : Inv s) (p : WPc α) {r d : Bool} (h1 : p.owns = s.wpc.owns)
    (h2 : p.inflight = s.wpc.inflight) (h3 : p.sawMessage = true → s.queue ≠ []) (h4 : p.dead = false)
    (h5 : p.outside = true → r = false) (h6 : d = true → s.discard = true)
    (h7 : p.clearing = true → s.wpc.clearing = true ∨ s.discard = true) :
    Inv { s.w p with running := r, discard := d } where
  wown := by simp only [St.w]; rw [h1]; exact h.wown
  cown := h.cown
  perm := by simp only [St.w]; rw [h2]; exact h.perm
  saw := h3
  alive := h4
  empty := h.empty
  out := h5
  flag hd := h.flag (h6 hd)
  clear hc := by rcases h7 hc with h8 | h8; exact h.clear h8; exact h.flag h8
  disc := h.disc

theorem inv_worker {pick : Pick α} (hp : GoodPick pick) {s s' : St α} (h : Inv s) (hs : worker pick s = some s') :
    Inv s' := by
  unfold worker at hs
  have hal := h.alive
  cases hw : s.wpc <;> rw [hw] at hs hal <;> simp only [WPc.dead, reduceCtorEq] at hs hal
  case checkRunning =>
    have hr := h.out (by rw [hw]; rfl)
    simp only [hr, Bool.false_eq_true, if_false, Option.some.injEq] at hs
    subst hs
    exact inv_w h .onStart (by rw [hw]; rfl) (by rw [hw]; rfl) (fun hh => by cases hh) rfl (fun _ => hr) id
      (fun hh => by cases hh)
  case onStart =>
    injection hs with hs; subst hs
    have hr := h.out (by rw [hw]; rfl)
    have h1 := h.wown; have h2 := h.perm
    rw [hw] at h1 h2
    exact ⟨h1, h.cown, h2, (fun hh => by cases hh), rfl, h.empty, fun _ => hr, fun hd => (h.flag hd).cons _,
      (fun hh => by cases hh), fun hd => (h.disc hd).cons _⟩
  case setRunning =>
    injection hs with hs; subst hs
    exact inv_w h .loopTest (by rw [hw]; rfl) (by rw [hw]; rfl) (fun hh => by cases hh) rfl (fun hh => by cases hh) id
      (fun hh => by cases hh)
  case loopTest =>
    injection hs with hs
    split at hs <;> subst hs
    · exact inv_w h .waitPred (by rw [hw]; rfl) (by rw [hw]; rfl) (fun hh => by cases hh) rfl (fun hh => by cases hh) id
        (fun hh => by cases hh)
    · rename_i hr
      exact inv_w h .onStop (by rw [hw]; rfl) (by rw [hw]; rfl) (fun hh => by cases hh) rfl (fun _ => by simpa using hr) id
        (fun hh => by cases hh)
  case waitPred =>
    injection hs with hs
    split at hs <;> subst hs
    · exact inv_w h .sleeping (by rw [hw]; rfl) (by rw [hw]; rfl) (fun hh => by cases hh) rfl (fun hh => by cases hh) id
        (fun hh => by cases hh)
    · exact inv_w h .testDiscard (by rw [hw]; rfl) (by rw [hw]; rfl) (fun hh => by cases hh) rfl (fun hh => by cases hh) id
        (fun hh => by cases hh)
  case testDiscard =>
    injection hs with hs
    split at hs <;> subst hs
    · rename_i hd
      exact inv_w h .clearFlag (by rw [hw]; rfl) (by rw [hw]; rfl) (fun hh => by cases hh) rfl (fun hh => by cases hh) id
        (fun _ => .inr hd)
    · exact inv_w h .innerPred (by rw [hw]; rfl) (by rw [hw]; rfl) (fun hh => by cases hh) rfl (fun hh => by cases hh) id
        (fun hh => by cases hh)
  case clearFlag =>
    injection hs with hs; subst hs
    exact inv_w h .clearEnter (by rw [hw]; rfl) (by rw [hw]; rfl) (fun hh => by cases hh) rfl (fun hh => by cases hh)
      (fun hh => by cases hh) (fun _ => .inl (by rw [hw]; rfl))
  case clearEnter =>
    split at hs
    · rename_i hm
      injection hs with hs; subst hs
      have h2 := h.perm
      rw [hw] at h2
      refine ⟨⟨fun _ => rfl, fun _ => rfl⟩, fun t => ?_, h2, (fun hh => by cases hh), rfl, h.empty,
        (fun hh => by cases hh), h.flag, fun _ => h.clear (by rw [hw]; rfl), h.disc⟩
      have := h.cown t
      rw [hm] at this
      simp only [St.w]
      simpa using this
    · cases hs
  case clearLoop =>
    split at hs
    · injection hs with hs; subst hs
      exact inv_w h .clearRelease (by rw [hw]; rfl) (by rw [hw]; rfl) (fun hh => by cases hh) rfl (fun hh => by cases hh) id
        (fun _ => .inl (by rw [hw]; rfl))
    · rename_i hne
      have hne : s.queue ≠ [] := by simpa using hne
      obtain ⟨m, q, e1, e2⟩ := hp.some s.queue hne
      rw [e1] at hs
      injection hs with hs; subst hs
      have h1 := h.wown; have h2 := h.perm
      have hcl := h.clear (by rw [hw]; rfl)
      rw [hw] at h1 h2
      refine ⟨h1, h.cown, ?_, (fun hh => by cases hh), rfl, h.empty, (fun hh => by cases hh), fun hd => (h.flag hd).cons _,
        fun _ => hcl.cons _, fun _ => hcl.cons _⟩
      simp only [St.emit, received, processed, discarded]
      simp only [WPc.inflight, List.append_nil] at h2 ⊢
      refine h2.trans ?_
      rw [List.append_assoc, List.append_assoc, List.append_assoc]
      refine List.Perm.append_left _ (List.Perm.append_left _ ?_)
      simpa using e2
  case clearRelease =>
    injection hs with hs; subst hs
    have h1 := h.wown; have h2 := h.perm
    rw [hw] at h1 h2
    have hm := h1.mp rfl
    refine ⟨⟨(fun hh => by cases hh), (fun hh => by cases hh)⟩, fun t => ?_, h2, (fun hh => by cases hh), rfl, h.empty,
      (fun hh => by cases hh), h.flag, (fun hh => by cases hh), h.disc⟩
    have := h.cown t
    rw [hm] at this
    simp only [St.w]
    simpa using this
  case innerPred =>
    injection hs with hs
    split at hs <;> subst hs
    · rename_i he
      have he : s.queue = [] := by simpa using he
      have h1 := h.wown; have h2 := h.perm
      rw [hw] at h1 h2
      refine ⟨h1, h.cown, h2, (fun hh => by cases hh), rfl, ⟨?_, h.empty⟩, (fun hh => by cases hh),
        fun hd => (h.flag hd).cons _, (fun hh => by cases hh), fun hd => (h.disc hd).cons _⟩
      rw [he] at h2
      simpa [WPc.inflight, St.w] using h2
    · rename_i hne
      exact inv_w h .innerDiscard (by rw [hw]; rfl) (by rw [hw]; rfl) (fun _ => by simpa using hne) rfl
        (fun hh => by cases hh) id (fun hh => by cases hh)
  case innerDiscard =>
    have hq := h.saw (by rw [hw]; rfl)
    injection hs with hs
    split at hs <;> subst hs
    · exact inv_w h .readStopped (by rw [hw]; rfl) (by rw [hw]; rfl) (fun hh => by cases hh) rfl (fun hh => by cases hh) id
        (fun hh => by cases hh)
    · exact inv_w h .popEnter (by rw [hw]; rfl) (by rw [hw]; rfl) (fun _ => hq) rfl (fun hh => by cases hh) id
        (fun hh => by cases hh)
  case popEnter =>
    have hq := h.saw (by rw [hw]; rfl)
    split at hs
    · rename_i hm
      injection hs with hs; subst hs
      have h2 := h.perm
      rw [hw] at h2
      refine ⟨⟨fun _ => rfl, fun _ => rfl⟩, fun t => ?_, h2, fun _ => hq, rfl, h.empty,
        (fun hh => by cases hh), h.flag, (fun hh => by cases hh), h.disc⟩
      have := h.cown t
      rw [hm] at this
      simp only [St.w]
      simpa using this
    · cases hs
  case popTake =>
    have hq := h.saw (by rw [hw]; rfl)
    obtain ⟨m, q, e1, e2⟩ := hp.some s.queue hq
    rw [e1] at hs
    injection hs with hs; subst hs
    have h1 := h.wown; have h2 := h.perm
    rw [hw] at h1 h2
    refine ⟨⟨fun _ => h1.mp rfl, fun _ => rfl⟩, h.cown, ?_, (fun hh => by cases hh), rfl, h.empty,
      (fun hh => by cases hh), fun hd => (h.flag hd).cons _, (fun hh => by cases hh), fun hd => (h.disc hd).cons _⟩
    simp only [St.w, St.emit, received, processed, discarded, WPc.inflight, List.append_nil] at h2 ⊢
    refine h2.trans ?_
    rw [List.append_assoc _ [m] q]
    exact List.Perm.append_left _ (by simpa using e2)
  case popRelease m =>
    injection hs with hs; subst hs
    have h1 := h.wown; have h2 := h.perm
    rw [hw] at h1 h2
    have hm := h1.mp rfl
    refine ⟨⟨(fun hh => by cases hh), (fun hh => by cases hh)⟩, fun t => ?_, h2, (fun hh => by cases hh), rfl, h.empty,
      (fun hh => by cases hh), h.flag, (fun hh => by cases hh), h.disc⟩
    have := h.cown t
    rw [hm] at this
    simp only [St.w]
    simpa using this
  case handle m =>
    injection hs with hs; subst hs
    have h1 := h.wown; have h2 := h.perm
    rw [hw] at h1 h2
    refine ⟨h1, h.cown, ?_, (fun hh => by cases hh), rfl, h.empty, (fun hh => by cases hh),
      fun hd => (h.flag hd).cons _, (fun hh => by cases hh), fun hd => (h.disc hd).cons _⟩
    simp only [St.w, St.emit, received, processed, discarded, WPc.inflight, List.append_nil] at h2 ⊢
    refine h2.trans (List.Perm.append_right _ ?_)
    rw [List.append_assoc, List.append_assoc]
    exact List.Perm.append_left _ List.perm_append_comm
  case readStopped =>
    injection hs with hs; subst hs
    exact inv_w h .loopTest (by rw [hw]; rfl) (by rw [hw]; rfl) (fun hh => by cases hh) rfl (fun hh => by cases hh) id
      (fun hh => by cases hh)
  case onStop =>
    injection hs with hs; subst hs
    have hr := h.out (by rw [hw]; rfl)
    have h1 := h.wown; have h2 := h.perm
    rw [hw] at h1 h2
    exact ⟨h1, h.cown, h2, (fun hh => by cases hh), rfl, h.empty, fun _ => hr, fun hd => (h.flag hd).cons _,
      (fun hh => by cases hh), fun hd => (h.disc hd).cons _⟩

/-- A step of a client that does not change the container. -/
theorem inv_c {s : St α} (h : Inv s) (t : Nat) (p : CPc α) {m : Option Owner} {st d : Bool} {log : List (Event α)}
    (hm : (s.mtx = some (.client t) ∧ m = none ∧ p.owns = false) ∨ (s.mtx = none ∧ m = some (.client t) ∧ p.owns = true) ∨
      (m = s.mtx ∧ p.owns = (s.cpc t).owns))
    (h1 : received log = received s.log) (h2 : processed log = processed s.log) (h3 : discarded log = discarded s.log)
    (h4 : EmptyOk log) (h5 : d = true → HasDiscard log) (h6 : HasDiscard s.log → HasDiscard log) :
    Inv { s.c t p with mtx := m, stopped := st, discard := d, log := log } := by
  refine ⟨?_, fun u => ?_, ?_, h.saw, h.alive, h4, h.out, h5, fun hc => h6 (h.clear hc), fun hd => h6 (h.disc ?_)⟩
  · have := h.wown
    simp only [St.c]
    rcases hm with ⟨a, b, c⟩ | ⟨a, b, c⟩ | ⟨a, b⟩
    · rw [a] at this; rw [b]; simpa using this
    · rw [a] at this; rw [b]; simpa using this
    · rw [a]; exact this
  · have hu := h.cown u
    simp only [St.c]
    by_cases hut : u = t
    · subst hut
      simp only [if_true]
      rcases hm with ⟨a, b, c⟩ | ⟨a, b, c⟩ | ⟨a, b⟩
      · rw [b, c]; simp
      · rw [b, c]; simp
      · rw [a, b]; exact hu
    · simp only [hut, if_false]
      rcases hm with ⟨a, b, c⟩ | ⟨a, b, c⟩ | ⟨a, b⟩
      · rw [a] at hu; rw [b]
        have : ¬ (some (Owner.client t) = some (Owner.client u)) := by
          intro e; injection e with e; injection e with e; exact hut e.symm
        simpa [this] using hu
      · rw [a] at hu; rw [b]
        have : ¬ (some (Owner.client t) = some (Owner.client u)) := by
          intro e; injection e with e; injection e with e; exact hut e.symm
        simpa [this] using hu
      · rw [a]; exact hu
  · simp only [St.c]
    rw [h1, h2, h3]; exact h.perm
  · rw [← h3]; exact hd

theorem inv_client {s s' : St α} (h : Inv s) (t : Nat) (hs : client s t = some s') : Inv s' := by
  unfold client at hs
  have hco := h.cown t
  have hid : ∀ {l : List (Event α)}, HasDiscard l → HasDiscard l := id
  cases hc : s.cpc t <;> rw [hc] at hs hco <;> simp only [reduceCtorEq] at hs
  case pushEnter m =>
    split at hs
    · rename_i hm
      injection hs with hs; subst hs
      exact inv_c h t (.pushBody m) (.inr (.inl ⟨hm, rfl, rfl⟩)) rfl rfl rfl h.empty h.flag hid
    · cases hs
  case pushBody m =>
    injection hs with hs; subst hs
    have hi := inv_c h t .pushRelease (m := s.mtx) (st := s.stopped) (d := s.discard) (log := s.log)
      (.inr (.inr ⟨rfl, by rw [hc]; rfl⟩)) rfl rfl rfl h.empty h.flag hid
    refine ⟨hi.wown, hi.cown, ?_, fun hh => ?_, hi.alive, h.empty, hi.out, fun hd => (h.flag hd).cons _,
      fun hd => (h.clear hd).cons _, fun hd => (h.disc hd).cons _⟩
    · have h2 := h.perm
      simp only [St.c, St.emit, received, processed, discarded]
      rw [← List.append_assoc]
      exact List.Perm.append_right _ h2
    · simp [St.emit, St.c]
  case pushRelease =>
    injection hs with hs; subst hs
    exact inv_c h t .notify (.inl ⟨hco.mp rfl, rfl, rfl⟩) rfl rfl rfl h.empty h.flag hid
  case notify =>
    injection hs with hs; subst hs
    exact inv_c h t .idle (.inr (.inr ⟨rfl, by rw [hc]; rfl⟩)) rfl rfl rfl h.empty h.flag hid
  case stopSet =>
    injection hs with hs; subst hs
    exact inv_c h t .notify (.inr (.inr ⟨rfl, by rw [hc]; rfl⟩)) rfl rfl rfl h.empty (fun hd => (h.flag hd).cons _)
      (fun hd => hd.cons _)
  case discardSet =>
    injection hs with hs; subst hs
    exact inv_c h t .notify (.inr (.inr ⟨rfl, by rw [hc]; rfl⟩)) rfl rfl rfl h.empty (fun _ => ⟨t, by simp⟩)
      (fun hd => hd.cons _)
  case sizeEnter =>
    split at hs
    · rename_i hm
      injection hs with hs; subst hs
      exact inv_c h t .sizeRead (.inr (.inl ⟨hm, rfl, rfl⟩)) rfl rfl rfl h.empty h.flag hid
    · cases hs
  case sizeRead =>
    injection hs with hs; subst hs
    exact inv_c h t (.sizeRelease _) (.inr (.inr ⟨rfl, by rw [hc]; rfl⟩)) rfl rfl rfl h.empty h.flag hid
  case sizeRelease n =>
    injection hs with hs; subst hs
    exact inv_c h t .idle (.inl ⟨hco.mp rfl, rfl, rfl⟩) rfl rfl rfl h.empty (fun hd => (h.flag hd).cons _)
      (fun hd => hd.cons _)
  case emptyEnter =>
    split at hs
    · rename_i hm
      injection hs with hs; subst hs
      exact inv_c h t .emptyRead (.inr (.inl ⟨hm, rfl, rfl⟩)) rfl rfl rfl h.empty h.flag hid
    · cases hs
  case emptyRead =>
    injection hs with hs; subst hs
    exact inv_c h t (.emptyRelease _) (.inr (.inr ⟨rfl, by rw [hc]; rfl⟩)) rfl rfl rfl h.empty h.flag hid
  case emptyRelease b =>
    injection hs with hs; subst hs
    exact inv_c h t .idle (.inl ⟨hco.mp rfl, rfl, rfl⟩) rfl rfl rfl h.empty (fun hd => (h.flag hd).cons _)
      (fun hd => hd.cons _)
  case runningRead =>
    injection hs with hs; subst hs
    exact inv_c h t .idle (.inr (.inr ⟨rfl, by rw [hc]; rfl⟩)) rfl rfl rfl h.empty (fun hd => (h.flag hd).cons _)
      (fun hd => hd.cons _)

theorem inv_step {pick : Pick α} (hp : GoodPick pick) {s s' : St α} (h : Inv s) (a : Act α)
    (hs : step pick s a = some s') : Inv s' := by
  cases a with
  | worker => exact inv_worker hp h hs
  | client t => exact inv_client h t hs
  | start =>
    simp only [step] at hs
    split at hs
    · rename_i hw
      injection hs with hs; subst hs
      exact inv_w h .checkRunning (by rw [hw]; rfl) (by rw [hw]; rfl) (fun hh => by cases hh) rfl
        (fun _ => h.out (by rw [hw]; rfl)) id (fun hh => by cases hh)
    · rename_i hw
      injection hs with hs; subst hs
      exact inv_w h .checkRunning (by rw [hw]; rfl) (by rw [hw]; rfl) (fun hh => by cases hh) rfl
        (fun _ => h.out (by rw [hw]; rfl)) id (fun hh => by cases hh)
    · cases hs
  | wake =>
    simp only [step] at hs
    split at hs
    · rename_i hw
      injection hs with hs; subst hs
      exact inv_w h .waitPred (by rw [hw]; rfl) (by rw [hw]; rfl) (fun hh => by cases hh) rfl
        (fun hh => by cases hh) id (fun hh => by cases hh)
    · cases hs
  | timeout =>
    simp only [step] at hs
    split at hs
    · rename_i hw
      injection hs with hs; subst hs
      exact inv_w h .testDiscard (by rw [hw]; rfl) (by rw [hw]; rfl) (fun hh => by cases hh) rfl
        (fun hh => by cases hh) id (fun hh => by cases hh)
    · cases hs
  | call t op =>
    simp only [step] at hs
    split at hs
    · rename_i hc
      injection hs with hs; subst hs
      cases op
      case receive m =>
        exact inv_c h t (.pushEnter m) (.inr (.inr ⟨rfl, by rw [hc]; rfl⟩)) rfl rfl rfl h.empty h.flag id
      case stop => exact inv_c h t .stopSet (.inr (.inr ⟨rfl, by rw [hc]; rfl⟩)) rfl rfl rfl h.empty h.flag id
      case discard => exact inv_c h t .discardSet (.inr (.inr ⟨rfl, by rw [hc]; rfl⟩)) rfl rfl rfl h.empty h.flag id
      case size => exact inv_c h t .sizeEnter (.inr (.inr ⟨rfl, by rw [hc]; rfl⟩)) rfl rfl rfl h.empty h.flag id
      case empty => exact inv_c h t .emptyEnter (.inr (.inr ⟨rfl, by rw [hc]; rfl⟩)) rfl rfl rfl h.empty h.flag id
      case isRunning => exact inv_c h t .runningRead (.inr (.inr ⟨rfl, by rw [hc]; rfl⟩)) rfl rfl rfl h.empty h.flag id
    · cases hs

/-- Induction over the reachable states. -/
theorem reach_ind {pick : Pick α} {P : St α → Prop} (h0 : P init)
    (hstep : ∀ s a s', P s → step pick s a = some s' → P s') {s : St α} (h : Reach pick s) : P s := by
  obtain ⟨sched, hs⟩ := h
  have : ∀ (sched : List (Act α)) (s s' : St α), P s → exec pick s sched = some s' → P s' := by
    intro sched
    induction sched with
    | nil => intro s s' h hs; injection hs with hs; subst hs; exact h
    | cons l ls ih =>
      intro s s' h hs
      simp only [exec] at hs
      cases hst : step pick s l with
      | none => rw [hst] at hs; cases hs
      | some s1 => rw [hst] at hs; exact ih s1 s' (hstep s l s1 h hst) hs
  exact this sched _ _ h0 hs

theorem reach_inv {pick : Pick α} (hp : GoodPick pick) {s : St α} (h : Reach pick s) : Inv s :=
  reach_ind inv_init (fun _ a _ hi hs => inv_step hp hi a hs) h

end Verif.MsgQueue
