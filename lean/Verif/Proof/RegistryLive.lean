import Verif.Props.RegistryWeak
import Verif.Proof.WeakWf
/-
Calls of the registry and trace points finish (C87).
-/
namespace Phosphor.RegConc.W
open Phosphor.Weak
variable {cat : Nat → Str} {w w' : St} {t u : Nat}

/-- Memory is in order. -/
structure Wfs (w : St) : Prop where
  mem : w.mem.Wf
  based : w.mem.Based
  mview : w.mview.Known w.mem.hist

theorem Wfs.step (h : Wfs w) (hs : Step cat w w') : Wfs w' := by
  have grow : ∀ {l : Loc} {ts : Nat} {m : Msg Loc Nat},
      w.mview.Known (w.mem.add l ts m).hist := h.mview.grow (grown _ _ _ _)
  cases hs with
  | other => exact ⟨h.mem.other, h.based, h.mview⟩
  | extLoad hr => exact ⟨h.mem.loadAcq hr.1, h.based, h.mview⟩
  | extStore _ => exact ⟨h.mem.storeRel, Mem.Based.add (μ := { w.mem with view := _ }) h.based, grow⟩
  | call _ _ hr => exact ⟨h.mem.loadAcq hr.1, h.based, h.mview⟩
  | enter _ hr => exact ⟨h.mem.loadAcq hr.1, h.based, h.mview⟩
  | enterFirst _ hr => exact ⟨h.mem.loadAcq hr.1, h.based, h.mview⟩
  | look _ _ hr => exact ⟨h.mem.loadAcq hr.1, h.based, h.mview⟩
  | scan1End => exact ⟨h.mem, h.based, h.mview⟩
  | scan1Hit => exact ⟨h.mem.read _, h.based, h.mview⟩
  | scan1Miss => exact ⟨h.mem.read _, h.based, h.mview⟩
  | lock => exact ⟨h.mem.look ((h.mem.view _).join h.mview), h.based, h.mview⟩
  | load2 _ hr => exact ⟨h.mem.loadRlx hr.1, h.based, h.mview⟩
  | scan2Hit => exact ⟨h.mem.read _, h.based, h.mview⟩
  | scan2Miss => exact ⟨h.mem.read _, h.based, h.mview⟩
  | room => exact ⟨h.mem, h.based, h.mview⟩
  | full => exact ⟨h.mem, h.based, h.mview⟩
  | writeGroup => exact ⟨h.mem.write _, h.based, h.mview⟩
  | writeStatus =>
    exact ⟨(((h.mem.read _).read _).read _).storeRel,
      Mem.Based.add (μ := { w.mem with view := _, rd := _ }) h.based, grow⟩
  | bump _ hr => exact ⟨h.mem.rmwRel hr.1, Mem.Based.add (μ := { w.mem with view := _ }) h.based, grow⟩
  | ret => exact ⟨h.mem, h.based, h.mem.view _⟩
  | callUpd => exact ⟨h.mem, h.based, h.mview⟩
  | uLock => exact ⟨h.mem.look ((h.mem.view _).join h.mview), h.based, h.mview⟩
  | uEn => exact ⟨h.mem.write _, h.based, h.mview⟩
  | uDis => exact ⟨h.mem.write _, h.based, h.mview⟩
  | uLoad _ hr => exact ⟨h.mem.loadRlx hr.1, h.based, h.mview⟩
  | uStore =>
    exact ⟨Mem.Wf.storeRlx (((h.mem.read _).read _).read _) h.based,
      Mem.Based.add (μ := { w.mem with view := _, rd := _ }) h.based, grow⟩
  | uClear =>
    exact ⟨h.mem.storeRlx h.based, Mem.Based.add (μ := { w.mem with view := _ }) h.based, grow⟩
  | uRet => exact ⟨h.mem, h.based, h.mem.view _⟩
  | store => exact ⟨h.mem.storeRel, Mem.Based.add (μ := { w.mem with view := _ }) h.based, grow⟩
  | test _ hr => exact ⟨h.mem.loadAcq hr.1, h.based, h.mview⟩

theorem Reachable.wfs (h : Reachable cat w) : Wfs w := by
  induction h with
  | init => exact ⟨.init _, .init _, fun l => ⟨_, rfl⟩⟩
  | step _ hs ih => exact ih.step hs

/-- The thread is at a point where it holds the mutex. -/
def inside : Pc → Bool
  | .reg (.locked _) _ | .reg (.scan2 _ _ _) _ | .reg (.writeGroup _ _) _ | .reg (.writeStatus _ _) _
  | .reg (.bump _ _) _ | .reg (.unlockRet _ _) _ | .reg (.uEn _) _ | .reg (.uDis _) _ | .reg (.uLoad _) _
  | .reg (.uLoop _ _ _) _ => true
  | _ => false

/-- How far the thread is from the end of its call. -/
def left : Pc → Nat
  | .idle => 0
  | .testing _ _ => 1
  | .storing _ _ => 2
  | .look _ => 511
  | .reg .idle _ => 1
  | .reg (.unlockRet _ _) _ => 3
  | .reg (.bump _ _) _ => 4
  | .reg (.writeStatus _ _) _ => 5
  | .reg (.writeGroup _ _) _ => 6
  | .reg (.scan2 _ c i) _ => c - i + 7
  | .reg (.locked _) _ => 258
  | .reg (.wantLock _) _ => 259
  | .reg (.scan1 _ c i) _ => c - i + 260
  | .reg (.uLoop _ c i) _ => c - i + 1
  | .reg (.uLoad _) _ => 252
  | .reg (.uDis _) _ => 253
  | .reg (.uEn _) _ => 254
  | .reg (.uWant _) _ => 255

theorem left_zero {p : Pc} (h : left p = 0) : p = .idle := by
  cases p with
  | idle => rfl
  | reg q tp => cases q <;> simp [left] at h
  | _ => simp [left] at h

theorem left_ret (tp : Option Nat) (i : Nat) : left (ret tp i) ≤ 2 := by cases tp <;> simp [ret, left]

/-- A step moves one thread at most, and if that is in a call, towards its end. -/
theorem moves (h : Reachable cat w) (hs : Step cat w w') :
    w'.pc = w.pc ∨ ∃ t q, w'.pc = setf w.pc t q ∧ (w.pc t = .idle ∨ left q < left (w.pc t)) := by
  obtain ⟨g, hr⟩ := rel_reachable h
  have hcount : ∀ {t ts m}, w.mem.readable t .count ts m → m.val ≤ 250 := by
    intro t ts m hm
    have h1 := hr.cmsg _ _ hm.1
    have h2 : 3 + g.ct ≤ 250 := hr.inv.chigh
    omega
  cases hs with
  | other => exact Or.inl rfl
  | extLoad => exact Or.inl rfl
  | extStore => exact Or.inl rfl
  | call hp => exact Or.inr ⟨_, _, rfl, Or.inl hp⟩
  | enter hp => exact Or.inr ⟨_, _, rfl, Or.inl hp⟩
  | enterFirst hp => exact Or.inr ⟨_, _, rfl, Or.inl hp⟩
  | look hp _ hm => exact Or.inr ⟨_, _, rfl, Or.inr (by rw [hp]; have := hcount hm; simp only [left]; omega)⟩
  | scan1End hp => exact Or.inr ⟨_, _, rfl, Or.inr (by rw [hp]; simp only [left]; omega)⟩
  | @scan1Hit t n c i tp hp =>
    exact Or.inr ⟨_, _, rfl, Or.inr (by rw [hp]; exact Nat.lt_of_le_of_lt (left_ret tp i) (by simp only [left]; omega))⟩
  | scan1Miss hp hi => exact Or.inr ⟨_, _, rfl, Or.inr (by rw [hp]; simp only [left]; omega)⟩
  | lock hp => exact Or.inr ⟨_, _, rfl, Or.inr (by rw [hp]; simp only [left]; omega)⟩
  | load2 hp hm => exact Or.inr ⟨_, _, rfl, Or.inr (by rw [hp]; have := hcount hm; simp only [left]; omega)⟩
  | scan2Hit hp hi => exact Or.inr ⟨_, _, rfl, Or.inr (by rw [hp]; simp only [left]; omega)⟩
  | scan2Miss hp hi => exact Or.inr ⟨_, _, rfl, Or.inr (by rw [hp]; simp only [left]; omega)⟩
  | room hp hi => exact Or.inr ⟨_, _, rfl, Or.inr (by rw [hp]; simp only [left]; omega)⟩
  | full hp hi => exact Or.inr ⟨_, _, rfl, Or.inr (by rw [hp]; simp only [left]; omega)⟩
  | writeGroup hp => exact Or.inr ⟨_, _, rfl, Or.inr (by rw [hp]; simp only [left]; omega)⟩
  | writeStatus hp => exact Or.inr ⟨_, _, rfl, Or.inr (by rw [hp]; simp only [left]; omega)⟩
  | bump hp => exact Or.inr ⟨_, _, rfl, Or.inr (by rw [hp]; simp only [left]; omega)⟩
  | @ret t n r tp hp =>
    exact Or.inr ⟨_, _, rfl, Or.inr (by rw [hp]; exact Nat.lt_of_le_of_lt (left_ret tp r) (by simp only [left]; omega))⟩
  | callUpd hp => exact Or.inr ⟨_, _, rfl, Or.inl hp⟩
  | uLock hp => exact Or.inr ⟨_, _, rfl, Or.inr (by rw [hp]; simp only [left]; omega)⟩
  | uEn hp => exact Or.inr ⟨_, _, rfl, Or.inr (by rw [hp]; simp only [left]; omega)⟩
  | uDis hp => exact Or.inr ⟨_, _, rfl, Or.inr (by rw [hp]; simp only [left]; omega)⟩
  | uLoad hp hm => exact Or.inr ⟨_, _, rfl, Or.inr (by rw [hp]; have := hcount hm; simp only [left]; omega)⟩
  | uStore hp hi => exact Or.inr ⟨_, _, rfl, Or.inr (by rw [hp]; simp only [left]; omega)⟩
  | uClear hp hi => exact Or.inr ⟨_, _, rfl, Or.inr (by rw [hp]; simp only [left]; omega)⟩
  | uRet hp hi => exact Or.inr ⟨_, _, rfl, Or.inr (by rw [hp]; simp only [left]; omega)⟩
  | store hp => exact Or.inr ⟨_, _, rfl, Or.inr (by rw [hp]; simp only [left]; omega)⟩
  | test hp => exact Or.inr ⟨_, _, rfl, Or.inr (by rw [hp]; simp only [left]; omega)⟩

theorem inside_ret (tp : Option Nat) (i : Nat) : inside (ret tp i) = false := by cases tp <;> rfl

/-- The owner of the mutex is at a point where it holds it. -/
theorem Reachable.owner (h : Reachable cat w) : ∀ u, w.mutex = some u → inside (w.pc u) = true := by
  induction h with
  | init => intro u hu; cases hu
  | @step w w' hr hs ih =>
    intro u hu
    obtain ⟨g, hrel⟩ := rel_reachable hr
    -- a step of `t` from inside to inside
    have stay : ∀ {t q}, inside q = true → w.mutex = some u → inside (setf w.pc t q u) = true := by
      intro t q hq hm
      by_cases htu : u = t
      · subst htu; rw [setf_self]; exact hq
      · rw [setf_ne _ _ htu]; exact ih u hm
    -- a step of `t` from outside to anywhere
    have out : ∀ {t q}, inside (w.pc t) = false → w.mutex = some u → inside (setf w.pc t q u) = true := by
      intro t q hq hm
      by_cases htu : u = t
      · subst htu; rw [ih u hm] at hq; cases hq
      · rw [setf_ne _ _ htu]; exact ih u hm
    -- a step of `t` that takes the mutex
    have take : ∀ {t q}, inside q = true → some t = some u → inside (setf w.pc t q u) = true := by
      intro t q hq hm
      cases hm; rw [setf_self]; exact hq
    cases hs with
    | other => exact ih u hu
    | extLoad => exact ih u hu
    | extStore => exact ih u hu
    | call hp => exact out (by rw [hp]; rfl) hu
    | enter hp => exact out (by rw [hp]; rfl) hu
    | enterFirst hp => exact out (by rw [hp]; rfl) hu
    | look hp => exact out (by rw [hp]; rfl) hu
    | scan1End hp => exact out (by rw [hp]; rfl) hu
    | scan1Hit hp => exact out (by rw [hp]; rfl) hu
    | scan1Miss hp => exact out (by rw [hp]; rfl) hu
    | lock hp => exact take rfl hu
    | load2 hp => exact stay rfl hu
    | scan2Hit hp => exact stay rfl hu
    | scan2Miss hp => exact stay rfl hu
    | room hp => exact stay rfl hu
    | full hp => exact stay rfl hu
    | writeGroup hp => exact stay rfl hu
    | writeStatus hp => exact stay rfl hu
    | bump hp => exact stay rfl hu
    | ret hp => cases hu
    | callUpd hp => exact out (by rw [hp]; rfl) hu
    | uLock hp => exact take rfl hu
    | uEn hp => exact stay rfl hu
    | uDis hp => exact stay rfl hu
    | uLoad hp => exact stay rfl hu
    | uStore hp => exact stay rfl hu
    | uClear hp => exact stay rfl hu
    | uRet hp => cases hu
    | store hp => exact out (by rw [hp]; rfl) hu
    | test hp => exact out (by rw [hp]; rfl) hu

/-- The thread is about to lock the mutex. -/
def waiting : Pc → Bool
  | .reg (.wantLock _) _ | .reg (.uWant _) _ => true
  | _ => false

/-- No thread is inside a call at `idle`. -/
theorem Reachable.noRegIdle (h : Reachable cat w) : ∀ t tp, w.pc t ≠ .reg .idle tp := by
  induction h with
  | init => intro t tp h; cases h
  | @step w w' hr hs ih =>
    intro u tp hu
    have mv : ∀ {t q}, setf w.pc t q u = .reg .idle tp → q ≠ .reg .idle tp → False := by
      intro t q h hq
      by_cases htu : u = t
      · subst htu; rw [setf_self] at h; exact hq h
      · rw [setf_ne _ _ htu] at h; exact ih u tp h
    cases hs with
    | other => exact ih u tp hu
    | extLoad => exact ih u tp hu
    | extStore => exact ih u tp hu
    | @scan1Hit t n c i tp' => exact mv hu (by cases tp' <;> simp [ret])
    | @ret t n r tp' => exact mv hu (by cases tp' <;> simp [ret])
    | _ => exact mv hu (by simp)

/-- A thread in a call can go on, unless it waits for the mutex. -/
theorem can (h : Reachable cat w) (hn : ∀ p, '\x00' ∉ cat p) (hp : w.pc t ≠ .idle)
    (hw : waiting (w.pc t) = true → w.mutex = none) :
    ∃ w' q, Step cat w w' ∧ w'.pc = setf w.pc t q ∧ left q < left (w.pc t) := by
  have hm := h.wfs.mem
  suffices hx : ∃ w' q, Step cat w w' ∧ w'.pc = setf w.pc t q ∧ q ≠ w.pc t by
    obtain ⟨w', q, h1, h2, h3⟩ := hx
    refine ⟨w', q, h1, h2, ?_⟩
    rcases moves h h1 with h4 | ⟨u, q', h4, h5⟩
    · exfalso; apply h3
      have : setf w.pc t q t = w.pc t := by rw [← h2, h4]
      rw [setf_self] at this; exact this
    · have e : ∀ x, setf w.pc t q x = setf w.pc u q' x := fun x => by rw [← h2, h4]
      by_cases htu : t = u
      · subst htu
        have := e t; rw [setf_self, setf_self] at this
        subst this
        exact h5.resolve_left hp
      · exfalso
        have := e t; rw [setf_self, setf_ne _ _ htu] at this
        exact h3 this
  obtain ⟨ts, m, hr⟩ := hm.readable t .count
  have key : ∀ p, w.pc t = p → ∃ w' q, Step cat w w' ∧ w'.pc = setf w.pc t q ∧ q ≠ p := by
    intro p hpp
    rw [hpp] at hp hw
    cases p with
    | idle => exact absurd rfl hp
    | look p => exact ⟨_, _, .look hpp (hn p) hr, rfl, by simp⟩
    | storing p i =>
      obtain ⟨ts, hf⟩ := hm.free t (.ptr p)
      exact ⟨_, _, .store hpp hf, rfl, by simp⟩
    | testing p i =>
      obtain ⟨ts, m, hr⟩ := hm.readable t (.status i)
      exact ⟨_, _, .test hpp hr, rfl, by simp⟩
    | reg q tp =>
      cases q with
      | idle => exact absurd hpp (h.noRegIdle t tp)
      | scan1 n c i =>
        by_cases hi : i < c
        · by_cases hg : w.groups i = n
          · exact ⟨_, _, .scan1Hit hpp hi hg, rfl, by cases tp <;> simp [ret]⟩
          · exact ⟨_, _, .scan1Miss hpp hi hg, rfl, by simp⟩
        · exact ⟨_, _, .scan1End hpp hi, rfl, by simp⟩
      | wantLock n => exact ⟨_, _, .lock hpp (hw rfl), rfl, by simp⟩
      | locked n => exact ⟨_, _, .load2 hpp hr, rfl, by simp⟩
      | scan2 n c i =>
        by_cases hi : i < c
        · by_cases hg : w.groups i = n
          · exact ⟨_, _, .scan2Hit hpp hi hg, rfl, by simp⟩
          · exact ⟨_, _, .scan2Miss hpp hi hg, rfl, by simp⟩
        · by_cases hc : c < registrySize
          · exact ⟨_, _, .room hpp hi hc, rfl, by simp⟩
          · exact ⟨_, _, .full hpp hi hc, rfl, by simp⟩
      | writeGroup n c => exact ⟨_, _, .writeGroup hpp, rfl, by simp⟩
      | writeStatus n c =>
        obtain ⟨ts, hf⟩ := hm.free t (.status c)
        exact ⟨_, _, .writeStatus hpp hf, rfl, by simp⟩
      | bump n c =>
        obtain ⟨ts, m, hr, hl⟩ := hm.last t .count
        exact ⟨_, _, .bump hpp hr hl, rfl, by simp⟩
      | unlockRet n r => exact ⟨_, _, .ret hpp, rfl, by cases tp <;> simp [ret]⟩
      | uWant u => exact ⟨_, _, .uLock hpp (hw rfl), rfl, by simp⟩
      | uEn u => exact ⟨_, _, .uEn hpp, rfl, by simp⟩
      | uDis u => exact ⟨_, _, .uDis hpp, rfl, by simp⟩
      | uLoad u => exact ⟨_, _, .uLoad hpp hr, rfl, by simp⟩
      | uLoop u c i =>
        by_cases hi : i < c
        · obtain ⟨ts, hf⟩ := hm.free t (.status i)
          cases u with
          | update e d => exact ⟨_, _, .uStore hpp hi hf, rfl, by simp⟩
          | disable => exact ⟨_, _, .uClear hpp hi hf, rfl, by simp⟩
        · exact ⟨_, _, .uRet hpp hi, rfl, by simp⟩
  exact key _ rfl

end Phosphor.RegConc.W
