import Verif.Model.MpmcWeak
import Verif.Proof.Mpmc
import Verif.Proof.Weak
namespace Phosphor.Mpmc.W
open Phosphor.Weak
variable {α : Type}

/-- A thread has claimed a position of cell `i` and not yet given it up. -/
def Owns (n : Nat) (p : Pc α) (i : Nat) : Prop :=
  ∃ q, (p.enqAt = some q ∨ p.deqAt = some q) ∧ q % n = i

/-- The recorded accesses to the data of cell `i` happened before `c`. -/
def Known (μ : Mem Loc Nat Nat) (i : Nat) (c : Clock) : Prop :=
  ∀ u, μ.wr i u ≤ c u ∧ μ.rd i u ≤ c u

/-- The memory with release and acquire stands for the sequentially consistent state `s`;
`top i` is the timestamp of the newest sequence number of cell `i`. -/
structure Rel (n : Nat) (w : St α) (s : Mpmc.St α) (top : Nat → Nat) : Prop where
  inv : Inv n s
  pc : w.pc = s.pc
  data : w.data = s.data
  log : w.log = s.log
  pub : w.pub = s.pub
  rel : w.rel = s.rel
  got : w.got = s.got
  enq : ∀ ts m, w.mem.hist .enq ts = some m → m.val = ts ∧ ts ≤ s.enqPos
  enqAll : ∀ ts, ts ≤ s.enqPos → w.mem.hist .enq ts ≠ none
  deq : ∀ ts m, w.mem.hist .deq ts = some m → m.val = ts ∧ ts ≤ s.deqPos
  deqAll : ∀ ts, ts ≤ s.deqPos → w.mem.hist .deq ts ≠ none
  seqLe : ∀ i ts m, w.mem.hist (.seq i) ts = some m → m.val ≤ s.seq i ∧ ts ≤ top i
  seqLt : ∀ i ts m, w.mem.hist (.seq i) ts = some m → ts < top i → m.val < s.seq i
  topMsg : ∀ i, ∃ m, w.mem.hist (.seq i) (top i) = some m ∧ m.val = s.seq i
  seqTop : ∀ i, (∀ t, ¬ Owns n (s.pc t) i) →
    ∀ m, w.mem.hist (.seq i) (top i) = some m → Known w.mem i m.view.clk
  own : ∀ t i, Owns n (s.pc t) i →
    top i ≤ (w.mem.view t).ts (.seq i) ∧ Known w.mem i (w.mem.view t).clk
  casE : ∀ t x pos, s.pc t = .enqCas x pos → ∃ ts m, w.mem.hist (.seq (pos % n)) ts = some m ∧
    m.val = pos ∧ ts ≤ (w.mem.view t).ts (.seq (pos % n)) ∧
    ∀ u, m.view.clk u ≤ (w.mem.view t).clk u
  casD : ∀ t pos, s.pc t = .deqCas pos → ∃ ts m, w.mem.hist (.seq (pos % n)) ts = some m ∧
    m.val = pos + 1 ∧ ts ≤ (w.mem.view t).ts (.seq (pos % n)) ∧
    ∀ u, m.view.clk u ≤ (w.mem.view t).clk u
  sent : ∀ p ts m, w.mem.hist (.seq (p % n)) ts = some m → m.val = p + 1 →
    ∀ u, w.sent p u ≤ m.view.clk u
  sentOwn : ∀ t p, (s.pc t).deqAt = some p → ∀ u, w.sent p u ≤ (w.mem.view t).clk u

theorem rel_init (n : Nat) : Rel n (St.init : St α) Mpmc.St.init (fun _ => 0) where
  inv := inv_init n
  pc := rfl
  data := rfl
  log := rfl
  pub := rfl
  rel := rfl
  got := rfl
  enq := by
    intro ts m h
    simp only [St.init, Mem.init] at h
    split at h
    · next h0 => subst h0; cases h; exact ⟨rfl, Nat.le_refl _⟩
    · cases h
  enqAll := by
    intro ts h h'
    have : ts = 0 := Nat.le_zero.1 h
    subst this; simp [St.init, Mem.init] at h'
  deq := by
    intro ts m h
    simp only [St.init, Mem.init] at h
    split at h
    · next h0 => subst h0; cases h; exact ⟨rfl, Nat.le_refl _⟩
    · cases h
  deqAll := by
    intro ts h h'
    have : ts = 0 := Nat.le_zero.1 h
    subst this; simp [St.init, Mem.init] at h'
  seqLe := by
    intro i ts m h
    simp only [St.init, Mem.init] at h
    split at h
    · next h0 => subst h0; cases h; exact ⟨Nat.le_refl _, Nat.le_refl _⟩
    · cases h
  seqLt := by intro i ts m _ h; exact absurd h (Nat.not_lt_zero _)
  topMsg := by intro i; exact ⟨_, rfl, rfl⟩
  seqTop := by intro i _ m _ u; exact ⟨Nat.zero_le _, Nat.zero_le _⟩
  own := by rintro t i ⟨q, h | h, _⟩ <;> cases h
  casE := by intro t x pos h; cases h
  casD := by intro t pos h; cases h
  sent := by intro p ts m _ _ u; exact Nat.zero_le _
  sentOwn := by intro t p h; cases h

section
variable {n : Nat} {w : St α} {s : Mpmc.St α} {top : Nat → Nat}

/-- Two threads never own the same cell. -/
theorem owner_unique (hn : 2 ≤ n) (h : Inv n s) {t u i : Nat} (ht : Owns n (s.pc t) i)
    (hu : Owns n (s.pc u) i) : t = u := by
  have sE : ∀ v q, (s.pc v).enqAt = some q → s.seq (q % n) = q := by
    intro v q hv; have := h.wlt v q hv; exact h.claimed q this.1 this.2
  have sD : ∀ v q, (s.pc v).deqAt = some q → s.seq (q % n) = q + 1 := by
    intro v q hv; have h1 := h.rlt v q hv; exact (h.full q (h.deqPub q h1.1) h1.2).1
  obtain ⟨q, hq, hi⟩ := ht
  obtain ⟨r, hr, hj⟩ := hu
  have hm : q % n = r % n := by rw [hi, hj]
  rcases hq with hq | hq <;> rcases hr with hr | hr
  · have h1 := sE _ _ hq; have h2 := sE _ _ hr
    have : q = r := by rw [← h1, ← h2, hm]
    subst this; exact h.wuniq _ _ _ hq hr
  · have h1 := sE _ _ hq; have h2 := sD _ _ hr
    exact absurd (by rw [← h1, ← h2, hm]) (mod_succ_ne hn hm)
  · have h1 := sD _ _ hq; have h2 := sE _ _ hr
    exact absurd (by rw [← h1, ← h2, hm]) (mod_succ_ne hn hm.symm)
  · have h1 := sD _ _ hq; have h2 := sD _ _ hr
    have : q + 1 = r + 1 := by rw [← h1, ← h2, hm]
    have : q = r := by omega
    subst this; exact h.runiq _ _ _ hq hr

/-- A stale sequence number that lets an enqueuer go on still means its position is free to
be claimed. -/
theorem stale_enq (hn : 2 ≤ n) (h : Inv n s) (hp : n ≤ s.enqPos)
    (hs : s.enqPos ≤ s.seq (s.enqPos % n)) : s.rel (s.enqPos - n) = true := by
  cases hr : s.rel (s.enqPos - n) with
  | true => rfl
  | false =>
    exfalso
    have hm : (s.enqPos - n) % n = s.enqPos % n := by rw [← Nat.mod_eq_sub_mod hp]
    cases hpub : s.pub (s.enqPos - n) with
    | false => have := h.claimed _ (by omega) hpub; rw [hm] at this; omega
    | true => have := (h.full _ hpub hr).1; rw [hm] at this; omega

theorem stale_deq (hn : 2 ≤ n) (h : Inv n s) {pos : Nat} (hle : pos ≤ s.deqPos)
    (hs : pos + 1 ≤ s.seq (pos % n)) : s.pub pos = true := by
  cases hpub : s.pub pos with
  | true => rfl
  | false =>
    exfalso
    have hd := h.deqLe
    by_cases hlt : pos < s.enqPos
    · have := h.claimed pos hlt hpub; omega
    · have he : pos = s.enqPos := by omega
      by_cases hpn : pos < n
      · have := h.fresh pos hpn (by omega); rw [Nat.mod_eq_of_lt hpn] at hs; omega
      · have hm : (pos - n) % n = pos % n := by
          rw [← Nat.mod_eq_sub_mod (by omega : n ≤ pos)]
        cases hr : s.rel (pos - n) with
        | true => have := h.empty _ hr (by omega); rw [hm] at this; omega
        | false =>
          have := (h.full _ (h.deqPub (pos - n) (by omega)) hr).1
          rw [hm] at this; omega

theorem not_owns {p : Pc α} (he : p.enqAt = none) (hd : p.deqAt = none) (i : Nat) :
    ¬ Owns n p i := by
  rintro ⟨q, h | h, _⟩
  · rw [he] at h; cases h
  · rw [hd] at h; cases h

/-- What a pc that was reached by a load has to know. -/
def Seen (n : Nat) (μ : Mem Loc Nat Nat) (t : Nat) : Pc α → Prop
  | .enqCas _ pos => ∃ ts m, μ.hist (.seq (pos % n)) ts = some m ∧
      m.val = pos ∧ ts ≤ (μ.view t).ts (.seq (pos % n)) ∧ ∀ u, m.view.clk u ≤ (μ.view t).clk u
  | .deqCas pos => ∃ ts m, μ.hist (.seq (pos % n)) ts = some m ∧
      m.val = pos + 1 ∧ ts ≤ (μ.view t).ts (.seq (pos % n)) ∧
      ∀ u, m.view.clk u ≤ (μ.view t).clk u
  | _ => True

theorem known_mono {μ μ' : Mem Loc Nat Nat} (hw : μ'.wr = μ.wr) (hr : μ'.rd = μ.rd) {i : Nat}
    {c c' : Clock} (h : Known μ i c) (hc : ∀ u, c u ≤ c' u) : Known μ' i c' := by
  intro u
  rw [hw, hr]
  exact ⟨Nat.le_trans (h u).1 (hc u), Nat.le_trans (h u).2 (hc u)⟩

theorem seen_mono {μ μ' : Mem Loc Nat Nat} (g : Grow μ μ') {t : Nat} {p : Pc α}
    (h : Seen n μ t p) : Seen n μ' t p := by
  cases p
  case enqCas x pos =>
    obtain ⟨ts, m, h1, h2, h3, h4⟩ := h
    exact ⟨ts, m, by rw [g.hist]; exact h1, h2, Nat.le_trans h3 (g.ts _ _),
      fun u => Nat.le_trans (h4 u) (g.clk _ _)⟩
  case deqCas pos =>
    obtain ⟨ts, m, h1, h2, h3, h4⟩ := h
    exact ⟨ts, m, by rw [g.hist]; exact h1, h2, Nat.le_trans h3 (g.ts _ _),
      fun u => Nat.le_trans (h4 u) (g.clk _ _)⟩
  all_goals trivial

/-- Only views change, and they grow. -/
theorem Rel.grow (h : Rel n w s top) {μ : Mem Loc Nat Nat} (g : Grow w.mem μ) :
    Rel n { w with mem := μ } s top where
  inv := h.inv
  pc := h.pc
  data := h.data
  log := h.log
  pub := h.pub
  rel := h.rel
  got := h.got
  enq := by dsimp only; rw [g.hist]; exact h.enq
  enqAll := by dsimp only; rw [g.hist]; exact h.enqAll
  deq := by dsimp only; rw [g.hist]; exact h.deq
  deqAll := by dsimp only; rw [g.hist]; exact h.deqAll
  seqLe := by dsimp only; rw [g.hist]; exact h.seqLe
  seqLt := by dsimp only; rw [g.hist]; exact h.seqLt
  topMsg := by dsimp only; rw [g.hist]; exact h.topMsg
  seqTop := by
    dsimp only; rw [g.hist]; intro i hi m hm
    exact known_mono g.wr g.rd (h.seqTop i hi m hm) (fun _ => Nat.le_refl _)
  own := by
    intro t i hi
    have := h.own t i hi
    exact ⟨Nat.le_trans this.1 (g.ts _ _), known_mono g.wr g.rd this.2 (fun _ => g.clk _ _)⟩
  casE := by
    intro t x pos hp
    have : Seen n w.mem t (.enqCas x pos : Pc α) := h.casE t x pos hp
    exact seen_mono g this
  casD := by
    intro t pos hp
    have : Seen n w.mem t (.deqCas pos : Pc α) := h.casD t pos hp
    exact seen_mono g this
  sent := by dsimp only; rw [g.hist]; exact h.sent
  sentOwn := by
    intro t p hp u
    exact Nat.le_trans (h.sentOwn t p hp u) (g.clk _ _)

/-- A thread that owns nothing moves its program counter. -/
theorem Rel.move (h : Rel n w s top) (t : Nat) (p : Pc α)
    (he : (s.pc t).enqAt = none) (hd : (s.pc t).deqAt = none)
    (he' : p.enqAt = none) (hd' : p.deqAt = none) (hp : PcOk n s p)
    (hs : Seen n w.mem t p) : Rel n { w with pc := setf w.pc t p } (s.goto t p) top := by
  have hO : ∀ u i, Owns n ((s.goto t p).pc u) i ↔ Owns n (s.pc u) i := by
    intro u i
    by_cases hu : u = t
    · subst hu
      simp only [Mpmc.St.goto, setf_self]
      exact ⟨fun h' => absurd h' (not_owns he' hd' i), fun h' => absurd h' (not_owns he hd i)⟩
    · simp only [Mpmc.St.goto, setf_ne _ _ hu]
  exact {
    inv := inv_goto h.inv t p hp (by rw [he, he']) (by rw [hd, hd'])
    pc := by simp only [Mpmc.St.goto, h.pc]
    data := h.data, log := h.log, pub := h.pub, rel := h.rel, got := h.got
    enq := h.enq, enqAll := h.enqAll, deq := h.deq, deqAll := h.deqAll
    seqLe := h.seqLe, seqLt := h.seqLt, topMsg := h.topMsg
    seqTop := by
      intro i hi
      exact h.seqTop i (fun u hu => hi u ((hO u i).2 hu))
    own := by
      intro u i hu
      exact h.own u i ((hO u i).1 hu)
    casE := by
      intro u x pos hu
      by_cases hut : u = t
      · subst hut
        simp only [Mpmc.St.goto, setf_self] at hu
        subst hu; exact hs
      · simp only [Mpmc.St.goto, setf_ne _ _ hut] at hu
        exact h.casE u x pos hu
    casD := by
      intro u pos hu
      by_cases hut : u = t
      · subst hut
        simp only [Mpmc.St.goto, setf_self] at hu
        subst hu; exact hs
      · simp only [Mpmc.St.goto, setf_ne _ _ hut] at hu
        exact h.casD u pos hu
    sent := h.sent
    sentOwn := by
      intro u q hu
      by_cases hut : u = t
      · subst hut
        simp only [Mpmc.St.goto, setf_self] at hu
        rw [hd'] at hu; cases hu
      · simp only [Mpmc.St.goto, setf_ne _ _ hut] at hu
        exact h.sentOwn u q hu }

/-- A load. -/
theorem Rel.load (h : Rel n w s top) (t : Nat) (p : Pc α) {μ : Mem Loc Nat Nat}
    (g : Grow w.mem μ)
    (he : (s.pc t).enqAt = none) (hd : (s.pc t).deqAt = none)
    (he' : p.enqAt = none) (hd' : p.deqAt = none) (hp : PcOk n s p)
    (hs : Seen n μ t p) : Rel n (w.goto t p μ) (s.goto t p) top :=
  Rel.move (w := { w with mem := μ }) (h.grow g) t p he hd he' hd' hp hs

theorem enqNext_cases (x : α) (pos v : Nat) :
    (enqNext x pos v = .enqCas x pos ∧ v = pos) ∨ (enqNext x pos v = .idle ∧ v < pos) ∨
      (enqNext x pos v = .enqReload x ∧ pos < v) := by
  unfold enqNext; dsimp only
  split
  · exact .inl ⟨rfl, by omega⟩
  · split
    · exact .inr (.inl ⟨rfl, by omega⟩)
    · exact .inr (.inr ⟨rfl, by omega⟩)

theorem deqNext_cases (pos v : Nat) :
    ((deqNext pos v : Pc α) = .deqCas pos ∧ v = pos + 1) ∨
      ((deqNext pos v : Pc α) = .idle ∧ v < pos + 1) ∨
      ((deqNext pos v : Pc α) = .deqReload ∧ pos + 1 < v) := by
  unfold deqNext; dsimp only
  split
  · exact .inl ⟨rfl, by omega⟩
  · split
    · exact .inr (.inl ⟨rfl, by omega⟩)
    · exact .inr (.inr ⟨rfl, by omega⟩)

theorem Rel.inc {t : Nat} (h : Rel n w s top) {ts : Nat} {m : Msg Loc Nat}
    (hr : w.mem.readable t .enq ts m) (hf : w.mem.free t .enq (ts + 1)) :
    m.val = ts ∧ ts = s.enqPos := by
  have h1 := h.enq ts m hr.1
  refine ⟨h1.1, ?_⟩
  apply Classical.byContradiction
  intro hne
  exact h.enqAll (ts + 1) (by omega) hf.1

theorem Rel.incD {t : Nat} (h : Rel n w s top) {ts : Nat} {m : Msg Loc Nat}
    (hr : w.mem.readable t .deq ts m) (hf : w.mem.free t .deq (ts + 1)) :
    m.val = ts ∧ ts = s.deqPos := by
  have h1 := h.deq ts m hr.1
  refine ⟨h1.1, ?_⟩
  apply Classical.byContradiction
  intro hne
  exact h.deqAll (ts + 1) (by omega) hf.1

/-- The message a successful exchange relies on is the newest one. -/
theorem Rel.newest (h : Rel n w s top) {i ts : Nat} {m : Msg Loc Nat}
    (hm : w.mem.hist (.seq i) ts = some m) (hv : m.val = s.seq i) : ts = top i := by
  have h1 := (h.seqLe i ts m hm).2
  apply Classical.byContradiction
  intro hne
  have := h.seqLt i ts m hm (by omega)
  omega

end

theorem rmw_view (μ : Mem Loc Nat Nat) (t : Nat) (l : Loc) (ts : Nat) (m : Msg Loc Nat) (v : Nat) :
    (∀ u k, (μ.view u).ts k ≤ ((μ.rmwRlx t l ts m v).view u).ts k) ∧
    (∀ u k, (μ.view u).clk k ≤ ((μ.rmwRlx t l ts m v).view u).clk k) := by
  have g := grow_loadRlx μ t l (ts + 1)
  exact ⟨g.ts, g.clk⟩

theorem rmw_hist {μ : Mem Loc Nat Nat} {t : Nat} {l k : Loc} {ts : Nat} {m : Msg Loc Nat} {v : Nat}
    (hk : k ≠ l) (i : Nat) : (μ.rmwRlx t l ts m v).hist k i = μ.hist k i := by
  simp [Mem.rmwRlx, Mem.add, hk]

theorem rmw_self {μ : Mem Loc Nat Nat} {t : Nat} {l : Loc} {ts : Nat} {m : Msg Loc Nat} {v : Nat}
    (i : Nat) : (μ.rmwRlx t l ts m v).hist l i =
      if i = ts + 1 then some ⟨v, m.view⟩ else μ.hist l i := by
  simp [Mem.rmwRlx, Mem.add]

theorem rel_enqCasOk {k : Nat} (hk : 1 ≤ k) {w : St α} {s : Mpmc.St α} {top : Nat → Nat}
    (h : Rel (2 ^ k) w s top) {t pos ts : Nat} {x : α} {m : Msg Loc Nat}
    (hpc : w.pc t = .enqCas x pos) (hr : w.mem.readable t .enq ts m) (hv : m.val = pos)
    (hf : w.mem.free t .enq (ts + 1)) :
    Rel (2 ^ k) { w.goto t (.enqWrite x pos) (w.mem.rmwRlx t .enq ts m (pos + 1)) with
        log := w.log ++ [x] }
      { s.goto t (.enqWrite x pos) with enqPos := pos + 1, log := s.log ++ [x] } top := by
  have hn : 2 ≤ 2 ^ k := by
    calc 2 = 2 ^ 1 := rfl
    _ ≤ 2 ^ k := Nat.pow_le_pow_right (by omega) hk
  rw [h.pc] at hpc
  obtain ⟨hv1, hts⟩ := h.inc hr hf
  have hpos : pos = s.enqPos := by omega
  have hinv := inv_step hk h.inv (Mpmc.Step.enqCasOk hpc hpos.symm)
  generalize hn' : (2 : Nat) ^ k = n at *
  have hp := h.inv.pcs t; rw [hpc] at hp
  have hready : s.seq (pos % n) = pos := by
    rw [hpos]; apply h.inv.enq_ready'
    intro hle; rw [← hpos] at hle ⊢; exact hp.2 hpos hle
  obtain ⟨ts1, m1, hm1, hmv, hmt, hmc⟩ := h.casE t x pos hpc
  have hnew : ts1 = top (pos % n) := h.newest hm1 (by rw [hmv, hready])
  have hno : ∀ u, ¬ Owns n (s.pc u) (pos % n) := by
    rintro u ⟨q, hq | hq, hqi⟩
    · have h1 := h.inv.wlt u q hq
      have h2 := h.inv.claimed q h1.1 h1.2
      rw [hqi, hready] at h2; omega
    · have h1 := h.inv.rlt u q hq
      have h2 := (h.inv.full q (h.inv.deqPub q h1.1) h1.2).1
      rw [hqi, hready] at h2
      exact mod_succ_ne hn hqi.symm h2
  have hknow : Known w.mem (pos % n) (w.mem.view t).clk := by
    subst hnew
    exact known_mono rfl rfl (h.seqTop _ hno m1 hm1) hmc
  obtain ⟨gts, gclk⟩ := rmw_view w.mem t .enq ts m (pos + 1)
  have hO : ∀ u i, u ≠ t → (Owns n ((setf s.pc t (.enqWrite x pos)) u) i ↔ Owns n (s.pc u) i) := by
    intro u i hu; rw [setf_ne _ _ hu]
  refine { inv := hinv, pc := ?_, data := h.data, log := ?_, pub := h.pub, rel := h.rel,
           got := h.got, enq := ?_, enqAll := ?_, deq := ?_, deqAll := ?_, seqLe := ?_,
           seqLt := ?_, topMsg := ?_, seqTop := ?_, own := ?_, casE := ?_, casD := ?_, sent := ?_,
           sentOwn := ?_ }
  · simp only [St.goto, Mpmc.St.goto, h.pc]
  · simp only [h.log]
  · intro i mi hi
    simp only [St.goto, rmw_self] at hi
    split at hi
    · next h1 => cases hi; subst h1; dsimp only; omega
    · have := h.enq i mi hi; exact ⟨this.1, by show i ≤ pos + 1; omega⟩
  · intro i hi
    simp only [St.goto, rmw_self]
    split
    · simp
    · have : i ≤ pos + 1 := hi
      exact h.enqAll i (by omega)
  · intro i mi hi
    simp only [St.goto, rmw_hist (show Loc.deq ≠ Loc.enq by simp)] at hi
    exact h.deq i mi hi
  · intro i hi
    simp only [St.goto, rmw_hist (show Loc.deq ≠ Loc.enq by simp)]
    exact h.deqAll i hi
  · intro i j mi hi
    simp only [St.goto, rmw_hist (show Loc.seq i ≠ Loc.enq by simp)] at hi
    exact h.seqLe i j mi hi
  · intro i j mi hi
    simp only [St.goto, rmw_hist (show Loc.seq i ≠ Loc.enq by simp)] at hi
    exact h.seqLt i j mi hi
  · intro i
    simp only [St.goto, rmw_hist (show Loc.seq i ≠ Loc.enq by simp)]
    exact h.topMsg i
  · intro i hi mi hmi
    simp only [St.goto, rmw_hist (show Loc.seq i ≠ Loc.enq by simp)] at hmi
    refine known_mono rfl rfl (h.seqTop i ?_ mi hmi) (fun _ => Nat.le_refl _)
    intro u hu
    by_cases hut : u = t
    · subst hut; rw [hpc] at hu; exact not_owns rfl rfl i hu
    · exact hi u ((hO u i hut).2 hu)
  · intro u i hu
    by_cases hut : u = t
    · subst hut
      simp only [Mpmc.St.goto, setf_self] at hu
      obtain ⟨q, hq | hq, hqi⟩ := hu
      · cases hq
        subst hqi
        exact ⟨Nat.le_trans (by rw [← hnew]; exact hmt) (gts _ _),
          known_mono rfl rfl hknow (gclk u)⟩
      · cases hq
    · have := h.own u i ((hO u i hut).1 hu)
      exact ⟨Nat.le_trans this.1 (gts _ _), known_mono rfl rfl this.2 (gclk u)⟩
  · intro u y p hu
    by_cases hut : u = t
    · subst hut; simp [Mpmc.St.goto] at hu
    · simp only [Mpmc.St.goto, setf_ne _ _ hut] at hu
      obtain ⟨ts2, m2, a, b, c, d⟩ := h.casE u y p hu
      refine ⟨ts2, m2, ?_, b, Nat.le_trans c (gts _ _), fun v => Nat.le_trans (d v) (gclk _ _)⟩
      simp only [St.goto, rmw_hist (show Loc.seq _ ≠ Loc.enq by simp)]; exact a
  · intro u p hu
    by_cases hut : u = t
    · subst hut; simp [Mpmc.St.goto] at hu
    · simp only [Mpmc.St.goto, setf_ne _ _ hut] at hu
      obtain ⟨ts2, m2, a, b, c, d⟩ := h.casD u p hu
      refine ⟨ts2, m2, ?_, b, Nat.le_trans c (gts _ _), fun v => Nat.le_trans (d v) (gclk _ _)⟩
      simp only [St.goto, rmw_hist (show Loc.seq _ ≠ Loc.enq by simp)]; exact a
  · intro p j mi hi
    simp only [St.goto, rmw_hist (show Loc.seq _ ≠ Loc.enq by simp)] at hi
    exact h.sent p j mi hi
  · intro u p hu
    by_cases hut : u = t
    · subst hut; simp [Mpmc.St.goto, Pc.deqAt] at hu
    · simp only [Mpmc.St.goto, setf_ne _ _ hut] at hu
      intro v
      exact Nat.le_trans (h.sentOwn u p hu v) (gclk _ _)

theorem two_le_pow {k : Nat} (hk : 1 ≤ k) : 2 ≤ 2 ^ k :=
  calc 2 = 2 ^ 1 := rfl
  _ ≤ 2 ^ k := Nat.pow_le_pow_right (by omega) hk

theorem rel_deqCasOk {k : Nat} (hk : 1 ≤ k) {w : St α} {s : Mpmc.St α} {top : Nat → Nat}
    (h : Rel (2 ^ k) w s top) {t pos ts : Nat} {m : Msg Loc Nat}
    (hpc : w.pc t = .deqCas pos) (hr : w.mem.readable t .deq ts m) (hv : m.val = pos)
    (hf : w.mem.free t .deq (ts + 1)) :
    Rel (2 ^ k) (w.goto t (.deqRead pos) (w.mem.rmwRlx t .deq ts m (pos + 1)))
      { s.goto t (.deqRead pos) with deqPos := pos + 1 } top := by
  have hn := two_le_pow hk
  rw [h.pc] at hpc
  obtain ⟨hv1, hts⟩ := h.incD hr hf
  have hpos : pos = s.deqPos := by omega
  have hinv := inv_step hk h.inv (Mpmc.Step.deqCasOk hpc hpos.symm)
  generalize hn' : (2 : Nat) ^ k = n at *
  have hp := h.inv.pcs t; rw [hpc] at hp
  have hrel : s.rel pos = false := by
    cases hb : s.rel pos with
    | false => rfl
    | true => have := h.inv.relLt pos hb; omega
  have hready : s.seq (pos % n) = pos + 1 := (h.inv.full pos hp.2 hrel).1
  obtain ⟨ts1, m1, hm1, hmv, hmt, hmc⟩ := h.casD t pos hpc
  have hnew : ts1 = top (pos % n) := h.newest hm1 (by rw [hmv, hready])
  have hno : ∀ u, ¬ Owns n (s.pc u) (pos % n) := by
    rintro u ⟨q, hq | hq, hqi⟩
    · have h1 := h.inv.wlt u q hq
      have h2 := h.inv.claimed q h1.1 h1.2
      rw [hqi, hready] at h2
      exact mod_succ_ne hn hqi h2.symm
    · have h1 := h.inv.rlt u q hq
      have h2 := (h.inv.full q (h.inv.deqPub q h1.1) h1.2).1
      rw [hqi, hready] at h2; omega
  have hknow : Known w.mem (pos % n) (w.mem.view t).clk := by
    subst hnew
    exact known_mono rfl rfl (h.seqTop _ hno m1 hm1) hmc
  obtain ⟨gts, gclk⟩ := rmw_view w.mem t .deq ts m (pos + 1)
  have hO : ∀ u i, u ≠ t → (Owns n ((setf s.pc t (.deqRead pos)) u) i ↔ Owns n (s.pc u) i) := by
    intro u i hu; rw [setf_ne _ _ hu]
  refine { inv := hinv, pc := ?_, data := h.data, log := h.log, pub := h.pub, rel := h.rel,
           got := h.got, enq := ?_, enqAll := ?_, deq := ?_, deqAll := ?_, seqLe := ?_,
           seqLt := ?_, topMsg := ?_, seqTop := ?_, own := ?_, casE := ?_, casD := ?_, sent := ?_,
           sentOwn := ?_ }
  · simp only [St.goto, Mpmc.St.goto, h.pc]
  · intro i mi hi
    simp only [St.goto, rmw_hist (show Loc.enq ≠ Loc.deq by simp)] at hi
    exact h.enq i mi hi
  · intro i hi
    simp only [St.goto, rmw_hist (show Loc.enq ≠ Loc.deq by simp)]
    exact h.enqAll i hi
  · intro i mi hi
    simp only [St.goto, rmw_self] at hi
    split at hi
    · next h1 => cases hi; subst h1; dsimp only; omega
    · have := h.deq i mi hi; exact ⟨this.1, by show i ≤ pos + 1; omega⟩
  · intro i hi
    simp only [St.goto, rmw_self]
    split
    · simp
    · have : i ≤ pos + 1 := hi
      exact h.deqAll i (by omega)
  · intro i j mi hi
    simp only [St.goto, rmw_hist (show Loc.seq i ≠ Loc.deq by simp)] at hi
    exact h.seqLe i j mi hi
  · intro i j mi hi
    simp only [St.goto, rmw_hist (show Loc.seq i ≠ Loc.deq by simp)] at hi
    exact h.seqLt i j mi hi
  · intro i
    simp only [St.goto, rmw_hist (show Loc.seq i ≠ Loc.deq by simp)]
    exact h.topMsg i
  · intro i hi mi hmi
    simp only [St.goto, rmw_hist (show Loc.seq i ≠ Loc.deq by simp)] at hmi
    refine known_mono rfl rfl (h.seqTop i ?_ mi hmi) (fun _ => Nat.le_refl _)
    intro u hu
    by_cases hut : u = t
    · subst hut; rw [hpc] at hu; exact not_owns rfl rfl i hu
    · exact hi u ((hO u i hut).2 hu)
  · intro u i hu
    by_cases hut : u = t
    · subst hut
      simp only [Mpmc.St.goto, setf_self] at hu
      obtain ⟨q, hq | hq, hqi⟩ := hu
      · cases hq
      · cases hq
        subst hqi
        exact ⟨Nat.le_trans (by rw [← hnew]; exact hmt) (gts _ _),
          known_mono rfl rfl hknow (gclk u)⟩
    · have := h.own u i ((hO u i hut).1 hu)
      exact ⟨Nat.le_trans this.1 (gts _ _), known_mono rfl rfl this.2 (gclk u)⟩
  · intro u y p hu
    by_cases hut : u = t
    · subst hut; simp [Mpmc.St.goto] at hu
    · simp only [Mpmc.St.goto, setf_ne _ _ hut] at hu
      obtain ⟨ts2, m2, a, b, c, d⟩ := h.casE u y p hu
      refine ⟨ts2, m2, ?_, b, Nat.le_trans c (gts _ _), fun v => Nat.le_trans (d v) (gclk _ _)⟩
      simp only [St.goto, rmw_hist (show Loc.seq _ ≠ Loc.deq by simp)]; exact a
  · intro u p hu
    by_cases hut : u = t
    · subst hut; simp [Mpmc.St.goto] at hu
    · simp only [Mpmc.St.goto, setf_ne _ _ hut] at hu
      obtain ⟨ts2, m2, a, b, c, d⟩ := h.casD u p hu
      refine ⟨ts2, m2, ?_, b, Nat.le_trans c (gts _ _), fun v => Nat.le_trans (d v) (gclk _ _)⟩
      simp only [St.goto, rmw_hist (show Loc.seq _ ≠ Loc.deq by simp)]; exact a
  · intro p j mi hi
    simp only [St.goto, rmw_hist (show Loc.seq _ ≠ Loc.deq by simp)] at hi
    exact h.sent p j mi hi
  · intro u p hu
    by_cases hut : u = t
    · subst hut
      simp only [Mpmc.St.goto, setf_self, Pc.deqAt, Option.some.injEq] at hu
      subst hu
      intro v
      exact Nat.le_trans (Nat.le_trans (h.sent pos ts1 m1 hm1 hmv v) (hmc v)) (gclk _ _)
    · simp only [Mpmc.St.goto, setf_ne _ _ hut] at hu
      intro v
      exact Nat.le_trans (h.sentOwn u p hu v) (gclk _ _)

/-- A plain access to the data of a cell by its owner. -/
theorem Rel.access {n : Nat} (hn : 2 ≤ n) {w : St α} {s s' : Mpmc.St α} {top : Nat → Nat}
    (h : Rel n w s top) {t i : Nat} {μ : Mem Loc Nat Nat} {p : Pc α} {d : Nat → Option α}
    (hi : Owns n (s.pc t) i) (hinv : Inv n s')
    (hs' : s' = { s.goto t p with data := d })
    (hhist : μ.hist = w.mem.hist) (hview : μ.view = setf w.mem.view t ((w.mem.view t).tick t))
    (hoth : ∀ j, j ≠ i → μ.wr j = w.mem.wr j ∧ μ.rd j = w.mem.rd j)
    (hown : ∀ u, (μ.wr i u ≤ w.mem.wr i u ∨ u = t ∧ μ.wr i u = (w.mem.view t).clk t + 1) ∧
      (μ.rd i u ≤ w.mem.rd i u ∨ u = t ∧ μ.rd i u = (w.mem.view t).clk t + 1))
    (he : p.enqAt = (s.pc t).enqAt) (hd : p.deqAt = (s.pc t).deqAt)
    (hc : ∀ x q, p ≠ .enqCas x q) (hc' : ∀ q, p ≠ .deqCas q) :
    Rel n { w.goto t p μ with data := d } s' top := by
  have hO : ∀ u j, Owns n (s'.pc u) j ↔ Owns n (s.pc u) j := by
    intro u j; subst hs'
    by_cases hu : u = t
    · subst hu; simp only [Mpmc.St.goto, setf_self, Owns, he, hd]
    · simp only [Mpmc.St.goto, setf_ne _ _ hu]
  have hpcs : ∀ u, u ≠ t → s'.pc u = s.pc u := by
    intro u hu; subst hs'; simp only [Mpmc.St.goto, setf_ne _ _ hu]
  have hpt : s'.pc t = p := by subst hs'; simp only [Mpmc.St.goto, setf_self]
  have gts : ∀ u l, (w.mem.view u).ts l ≤ (μ.view u).ts l := by
    intro u l; rw [hview]; by_cases hu : u = t
    · subst hu; rw [setf_self]; exact Nat.le_refl _
    · rw [setf_ne _ _ hu]; exact Nat.le_refl _
  have gclk : ∀ u v, (w.mem.view u).clk v ≤ (μ.view u).clk v := by
    intro u v; rw [hview]; by_cases hu : u = t
    · subst hu; rw [setf_self]; exact tick_clk _ _ _
    · rw [setf_ne _ _ hu]; exact Nat.le_refl _
  have hme : ∀ u, (w.mem.view t).clk u ≤ (μ.view t).clk u ∧
      (u = t → (w.mem.view t).clk t + 1 ≤ (μ.view t).clk u) := by
    intro u; refine ⟨gclk t u, ?_⟩
    rintro rfl; rw [hview, setf_self]; simp [View.tick]
  have hk : ∀ j c c', j ≠ i → Known w.mem j c → (∀ u, c u ≤ c' u) → Known μ j c' := by
    intro j c c' hj h1 h2 u
    rw [(hoth j hj).1, (hoth j hj).2]
    exact ⟨Nat.le_trans (h1 u).1 (h2 u), Nat.le_trans (h1 u).2 (h2 u)⟩
  have hseen : ∀ u q, u ≠ t → Seen n w.mem u q → Seen (α := α) n μ u q := by
    intro u q _ hq
    cases q
    case enqCas x pos =>
      obtain ⟨ts, m, h1, h2, h3, h4⟩ := hq
      exact ⟨ts, m, by rw [hhist]; exact h1, h2, Nat.le_trans h3 (gts _ _),
        fun u => Nat.le_trans (h4 u) (gclk _ _)⟩
    case deqCas pos =>
      obtain ⟨ts, m, h1, h2, h3, h4⟩ := hq
      exact ⟨ts, m, by rw [hhist]; exact h1, h2, Nat.le_trans h3 (gts _ _),
        fun u => Nat.le_trans (h4 u) (gclk _ _)⟩
    all_goals trivial
  refine { inv := hinv, pc := ?_, data := ?_, log := ?_, pub := ?_, rel := ?_,
           got := ?_, enq := ?_, enqAll := ?_, deq := ?_, deqAll := ?_, seqLe := ?_,
           seqLt := ?_, topMsg := ?_, seqTop := ?_, own := ?_, casE := ?_, casD := ?_, sent := ?_,
           sentOwn := ?_ }
  · subst hs'; simp only [St.goto, Mpmc.St.goto, h.pc]
  · subst hs'; rfl
  · subst hs'; exact h.log
  · subst hs'; exact h.pub
  · subst hs'; exact h.rel
  · subst hs'; exact h.got
  · subst hs'; simp only [St.goto, hhist]; exact h.enq
  · subst hs'; simp only [St.goto, hhist]; exact h.enqAll
  · subst hs'; simp only [St.goto, hhist]; exact h.deq
  · subst hs'; simp only [St.goto, hhist]; exact h.deqAll
  · subst hs'; simp only [St.goto, hhist]; exact h.seqLe
  · subst hs'; simp only [St.goto, hhist]; exact h.seqLt
  · subst hs'; simp only [St.goto, hhist]; exact h.topMsg
  · intro j hj m hm
    simp only [St.goto, hhist] at hm
    have hji : j ≠ i := by
      rintro rfl; exact hj t ((hO t j).2 hi)
    refine hk j _ _ hji (h.seqTop j (fun u hu => hj u ((hO u j).2 hu)) m hm)
      (fun _ => Nat.le_refl _)
  · intro u j hu
    have hu' := (hO u j).1 hu
    have h1 := h.own u j hu'
    refine ⟨Nat.le_trans h1.1 (gts _ _), ?_⟩
    by_cases hji : j = i
    · subst hji
      have hut : u = t := owner_unique hn h.inv hu' hi
      subst hut
      intro v
      have h2 := hown v
      have h3 := h1.2 v
      have h4 := hme v
      refine ⟨?_, ?_⟩
      · rcases h2.1 with h5 | ⟨h5, h6⟩
        · exact Nat.le_trans h5 (Nat.le_trans h3.1 h4.1)
        · show μ.wr j v ≤ _; rw [h6]; exact h4.2 h5
      · rcases h2.2 with h5 | ⟨h5, h6⟩
        · exact Nat.le_trans h5 (Nat.le_trans h3.2 h4.1)
        · show μ.rd j v ≤ _; rw [h6]; exact h4.2 h5
    · exact hk j _ _ hji h1.2 (gclk u)
  · intro u x q hu
    by_cases hut : u = t
    · subst hut; rw [hpt] at hu; exact absurd hu (hc x q)
    · rw [hpcs u hut] at hu
      have h1 : Seen n w.mem u (.enqCas x q : Pc α) := h.casE u x q hu
      exact hseen u _ hut h1
  · intro u q hu
    by_cases hut : u = t
    · subst hut; rw [hpt] at hu; exact absurd hu (hc' q)
    · rw [hpcs u hut] at hu
      have h1 : Seen n w.mem u (.deqCas q : Pc α) := h.casD u q hu
      exact hseen u _ hut h1
  · simp only [St.goto, hhist]; exact h.sent
  · intro u q hu v
    have : (s.pc u).deqAt = some q := by
      by_cases hut : u = t
      · subst hut; rw [hpt] at hu; rw [← hd]; exact hu
      · rw [hpcs u hut] at hu; exact hu
    exact Nat.le_trans (h.sentOwn u q this v) (gclk _ _)

theorem rel_enqWrite {k : Nat} (hk : 1 ≤ k) {w : St α} {s : Mpmc.St α} {top : Nat → Nat}
    (h : Rel (2 ^ k) w s top) {t pos : Nat} {x : α} (hpc : w.pc t = .enqWrite x pos) :
    Rel (2 ^ k) { w.goto t (.enqPub x pos) (w.mem.write t (idx (2 ^ k) pos)) with
        data := setf w.data (idx (2 ^ k) pos) (some x) }
      { s.goto t (.enqPub x pos) with
        data := setf s.data (idx (2 ^ k) pos) (some x) } top := by
  have hn := two_le_pow hk
  rw [h.pc] at hpc
  have hinv := inv_step hk h.inv (Mpmc.Step.enqWrite hpc)
  rw [h.data]
  refine h.access hn (t := t) (i := idx (2 ^ k) pos) ⟨pos, .inl (by rw [hpc]; rfl), (idx_eq _ _).symm⟩
    hinv rfl rfl rfl ?_ ?_ (by rw [hpc]; rfl) (by rw [hpc]; rfl) (by intros; simp) (by intros; simp)
  · intro j hj; simp [Mem.write, hj]
  · intro u
    refine ⟨?_, .inl (Nat.le_refl _)⟩
    simp only [Mem.write, if_true, setf]
    split
    · next hu => exact .inr ⟨hu, rfl⟩
    · exact .inl (Nat.le_refl _)

theorem rel_deqRead {k : Nat} (hk : 1 ≤ k) {w : St α} {s : Mpmc.St α} {top : Nat → Nat}
    (h : Rel (2 ^ k) w s top) {t pos : Nat} (hpc : w.pc t = .deqRead pos) :
    Rel (2 ^ k) (w.goto t (.deqPub pos (w.data (idx (2 ^ k) pos))) (w.mem.read t (idx (2 ^ k) pos)))
      (s.goto t (.deqPub pos (s.data (idx (2 ^ k) pos)))) top := by
  have hn := two_le_pow hk
  rw [h.pc] at hpc
  have hinv := inv_step hk h.inv (Mpmc.Step.deqRead hpc)
  have hd := h.data
  rw [hd]
  have := h.access hn (t := t) (i := idx (2 ^ k) pos) (d := w.data)
    (p := .deqPub pos (s.data (idx (2 ^ k) pos)))
    (μ := w.mem.read t (idx (2 ^ k) pos))
    (s' := s.goto t (.deqPub pos (s.data (idx (2 ^ k) pos))))
    ⟨pos, .inr (by rw [hpc]; rfl), (idx_eq _ _).symm⟩
    hinv (by rw [hd]; rfl) rfl rfl ?_ ?_ (by rw [hpc]; rfl) (by rw [hpc]; rfl)
    (by intros; simp) (by intros; simp)
  · exact this
  · intro j hj; simp [Mem.read, hj]
  · intro u
    refine ⟨.inl (Nat.le_refl _), ?_⟩
    simp only [Mem.read, if_true, setf]
    split
    · next hu => exact .inr ⟨hu, rfl⟩
    · exact .inl (Nat.le_refl _)

theorem store_hist {μ : Mem Loc Nat Nat} {t : Nat} {l : Loc} {ts v : Nat} (k : Loc) (i : Nat) :
    (μ.storeRel t l ts v).hist k i =
      if k = l ∧ i = ts then some ⟨v, (μ.view t).see l ts⟩ else μ.hist k i := rfl

/-- The owner of a cell gives it up with a release store of its sequence number. -/
theorem Rel.publish {n : Nat} (hn : 2 ≤ n) {w w' : St α} {s s' : Mpmc.St α} {top : Nat → Nat}
    (h : Rel n w s top) {t i v ts : Nat}
    (hi : Owns n (s.pc t) i) (hinv : Inv n s') (hf : w.mem.free t (.seq i) ts)
    (hv : s.seq i < v)
    (hmem : w'.mem = w.mem.storeRel t (.seq i) ts v)
    (hpc : w'.pc = s'.pc) (hpc' : s'.pc = setf s.pc t .idle) (hdata : w'.data = s'.data)
    (hlog : w'.log = s'.log) (hpub : w'.pub = s'.pub) (hrel : w'.rel = s'.rel)
    (hgot : w'.got = s'.got) (hseq : s'.seq = setf s.seq i v)
    (henq : s'.enqPos = s.enqPos) (hdeq : s'.deqPos = s.deqPos)
    (hnew : ∀ p, p % n = i → v = p + 1 → ∀ u, w'.sent p u ≤ (w.mem.view t).clk u)
    (hsame : ∀ p, (∃ ts m, w.mem.hist (.seq (p % n)) ts = some m ∧ m.val = p + 1) ∨
      (∃ u, (s.pc u).deqAt = some p) → w'.sent p = w.sent p) :
    Rel n w' s' (setf top i ts) := by
  have hown := h.own t i hi
  have hts : top i < ts := Nat.lt_of_le_of_lt hown.1 hf.2
  have hfree := hf.1
  have gview := grow_loadRlx w.mem t (.seq i) ts
  have gts : ∀ u l, (w.mem.view u).ts l ≤ (w'.mem.view u).ts l := by
    intro u l; rw [hmem]; exact gview.ts u l
  have gclk : ∀ u k, (w.mem.view u).clk k ≤ (w'.mem.view u).clk k := by
    intro u k; rw [hmem]; exact gview.clk u k
  have hh : ∀ l j m, w.mem.hist l j = some m → w'.mem.hist l j = some m := by
    intro l j m hm
    rw [hmem, store_hist, if_neg]
    · exact hm
    · rintro ⟨rfl, rfl⟩; rw [hfree] at hm; cases hm
  have hh' : ∀ l j m, w'.mem.hist l j = some m → w.mem.hist l j = some m ∨
      (l = .seq i ∧ j = ts ∧ m = ⟨v, (w.mem.view t).see (.seq i) ts⟩) := by
    intro l j m hm
    rw [hmem, store_hist] at hm
    split at hm
    · next h1 => exact .inr ⟨h1.1, h1.2, (Option.some.inj hm).symm⟩
    · exact .inl hm
  have hwr : w'.mem.wr = w.mem.wr := by rw [hmem]; rfl
  have hrd : w'.mem.rd = w.mem.rd := by rw [hmem]; rfl
  have hO : ∀ u j, Owns n (s'.pc u) j ↔ Owns n (s.pc u) j ∧ u ≠ t := by
    intro u j
    rw [hpc']
    by_cases hu : u = t
    · subst hu; rw [setf_self]
      exact ⟨fun h' => absurd h' (not_owns rfl rfl j), fun h' => absurd rfl h'.2⟩
    · rw [setf_ne _ _ hu]; exact ⟨fun h' => ⟨h', hu⟩, fun h' => h'.1⟩
  have hseen : ∀ u q, Seen n w.mem u q → Seen (α := α) n w'.mem u q := by
    intro u q hq
    cases q
    case enqCas x pos =>
      obtain ⟨ts, m, h1, h2, h3, h4⟩ := hq
      exact ⟨ts, m, hh _ _ _ h1, h2, Nat.le_trans h3 (gts _ _),
        fun u => Nat.le_trans (h4 u) (gclk _ _)⟩
    case deqCas pos =>
      obtain ⟨ts, m, h1, h2, h3, h4⟩ := hq
      exact ⟨ts, m, hh _ _ _ h1, h2, Nat.le_trans h3 (gts _ _),
        fun u => Nat.le_trans (h4 u) (gclk _ _)⟩
    all_goals trivial
  refine { inv := hinv, pc := hpc, data := hdata, log := hlog, pub := hpub, rel := hrel,
           got := hgot, enq := ?_, enqAll := ?_, deq := ?_, deqAll := ?_, seqLe := ?_,
           seqLt := ?_, topMsg := ?_, seqTop := ?_, own := ?_, casE := ?_, casD := ?_, sent := ?_,
           sentOwn := ?_ }
  · intro j m hm
    rw [henq]
    rcases hh' _ _ _ hm with h1 | ⟨h1, _⟩
    · exact h.enq j m h1
    · cases h1
  · intro j hj
    rw [henq] at hj
    have := h.enqAll j hj
    cases hc : w.mem.hist .enq j with
    | none => exact absurd hc this
    | some m => rw [hh _ _ _ hc]; simp
  · intro j m hm
    rw [hdeq]
    rcases hh' _ _ _ hm with h1 | ⟨h1, _⟩
    · exact h.deq j m h1
    · cases h1
  · intro j hj
    rw [hdeq] at hj
    have := h.deqAll j hj
    cases hc : w.mem.hist .deq j with
    | none => exact absurd hc this
    | some m => rw [hh _ _ _ hc]; simp
  · intro c j m hm
    rw [hseq]
    rcases hh' _ _ _ hm with h1 | ⟨h1, h2, h3⟩
    · have h4 := h.seqLe c j m h1
      by_cases hci : c = i
      · subst hci; rw [setf_self, setf_self]; omega
      · rw [setf_ne _ _ hci, setf_ne _ _ hci]; exact h4
    · cases h1; subst h2 h3; rw [setf_self, setf_self]; exact ⟨Nat.le_refl _, Nat.le_refl _⟩
  · intro c j m hm hlt
    rw [hseq]
    rcases hh' _ _ _ hm with h1 | ⟨h1, h2, h3⟩
    · by_cases hci : c = i
      · subst hci; rw [setf_self]
        exact Nat.lt_of_le_of_lt (h.seqLe c j m h1).1 hv
      · rw [setf_ne _ _ hci] at hlt ⊢; exact h.seqLt c j m h1 hlt
    · cases h1; subst h2; rw [setf_self] at hlt; exact absurd hlt (Nat.lt_irrefl _)
  · intro c
    rw [hseq]
    by_cases hci : c = i
    · subst hci
      exact ⟨⟨v, (w.mem.view t).see (.seq c) ts⟩,
        by rw [hmem, store_hist, setf_self, if_pos ⟨rfl, rfl⟩], by rw [setf_self]⟩
    · rw [setf_ne _ _ hci, setf_ne _ _ hci]
      obtain ⟨m, hm, hmv⟩ := h.topMsg c
      exact ⟨m, hh _ _ _ hm, hmv⟩
  · intro c hc m hm
    rcases hh' _ _ _ hm with h1 | ⟨h1, h2, h3⟩
    · by_cases hci : c = i
      · subst hci
        rw [setf_self, hfree] at h1; cases h1
      · rw [setf_ne _ _ hci] at h1
        refine known_mono hwr hrd (h.seqTop c ?_ m h1) (fun _ => Nat.le_refl _)
        intro u hu
        by_cases hut : u = t
        · subst hut
          obtain ⟨q, hq, hqc⟩ := hu
          obtain ⟨r, hr, hri⟩ := hi
          have : q = r := by
            rcases hq with hq | hq <;> rcases hr with hr | hr
            · rw [hq] at hr; exact Option.some.inj hr
            · exfalso; cases hp : s.pc u <;> rw [hp] at hq hr <;> simp [Pc.enqAt, Pc.deqAt] at hq hr
            · exfalso; cases hp : s.pc u <;> rw [hp] at hq hr <;> simp [Pc.enqAt, Pc.deqAt] at hq hr
            · rw [hq] at hr; exact Option.some.inj hr
          subst this
          exact hci (hqc.symm.trans hri)
        · exact hc u ((hO u c).2 ⟨hu, hut⟩)
    · cases h1; subst h3
      exact known_mono hwr hrd hown.2 (fun _ => Nat.le_refl _)
  · intro u c hu
    have hu' := (hO u c).1 hu
    have h1 := h.own u c hu'.1
    have hci : c ≠ i := by
      rintro rfl
      exact hu'.2 (owner_unique hn h.inv hu'.1 hi)
    rw [setf_ne _ _ hci]
    exact ⟨Nat.le_trans h1.1 (gts _ _), known_mono hwr hrd h1.2 (gclk u)⟩
  · intro u x q hu
    rw [hpc'] at hu
    by_cases hut : u = t
    · subst hut; simp at hu
    · rw [setf_ne _ _ hut] at hu
      have h1 : Seen n w.mem u (.enqCas x q : Pc α) := h.casE u x q hu
      exact hseen u _ h1
  · intro u q hu
    rw [hpc'] at hu
    by_cases hut : u = t
    · subst hut; simp at hu
    · rw [setf_ne _ _ hut] at hu
      have h1 : Seen n w.mem u (.deqCas q : Pc α) := h.casD u q hu
      exact hseen u _ h1
  · intro p j m hm hmv u
    rcases hh' _ _ _ hm with h1 | ⟨h1, h2, h3⟩
    · rw [hsame p (.inl ⟨j, m, h1, hmv⟩)]
      exact h.sent p j m h1 hmv u
    · subst h3
      exact hnew p (Loc.seq.inj h1) hmv u
  · intro u p hu v
    rw [hpc'] at hu
    by_cases hut : u = t
    · subst hut; simp [Pc.deqAt] at hu
    · rw [setf_ne _ _ hut] at hu
      rw [hsame p (.inr ⟨u, hu⟩)]
      exact Nat.le_trans (h.sentOwn u p hu v) (gclk _ _)

theorem rel_enqPub {k : Nat} (hk : 1 ≤ k) {w : St α} {s : Mpmc.St α} {top : Nat → Nat}
    (h : Rel (2 ^ k) w s top) {t pos ts : Nat} {x : α} (hpc : w.pc t = .enqPub x pos)
    (hf : w.mem.free t (.seq (idx (2 ^ k) pos)) ts) :
    Rel (2 ^ k) { w.goto t .idle (w.mem.storeRel t (.seq (idx (2 ^ k) pos)) ts (pos + 1)) with
        pub := setf w.pub pos true, sent := setf w.sent pos (w.mem.view t).clk }
      { s.goto t .idle with
        seq := setf s.seq (idx (2 ^ k) pos) (pos + 1), pub := setf s.pub pos true }
      (setf top (idx (2 ^ k) pos) ts) := by
  have hn := two_le_pow hk
  rw [h.pc] at hpc
  have hinv := inv_step hk h.inv (Mpmc.Step.enqPub hpc)
  have hw := h.inv.wlt t pos (by rw [hpc]; rfl)
  have hcl := h.inv.claimed pos hw.1 hw.2
  rw [← idx_eq] at hcl
  refine h.publish hn (t := t) (i := idx (2 ^ k) pos) (v := pos + 1) (ts := ts)
    ⟨pos, .inl (by rw [hpc]; rfl), (idx_eq _ _).symm⟩ hinv hf (by omega) rfl ?_ rfl ?_ h.log ?_
    h.rel h.got rfl rfl rfl ?_ ?_
  · simp only [St.goto, Mpmc.St.goto, h.pc]
  · exact h.data
  · simp only [h.pub]
  · intro p hp hv u
    have : p = pos := by omega
    subst this
    show setf w.sent p (w.mem.view t).clk p u ≤ _
    rw [setf_self]; exact Nat.le_refl _
  · intro p hp
    show setf w.sent pos (w.mem.view t).clk p = w.sent p
    rw [setf_ne]
    rintro rfl
    rcases hp with ⟨j, m, hm, hv⟩ | ⟨u, hu⟩
    · rw [← idx_eq] at hm
      have := (h.seqLe _ _ _ hm).1
      omega
    · have := h.inv.deqPub p (h.inv.rlt u p hu).1
      rw [hw.2] at this; cases this

theorem rel_deqPub {k : Nat} (hk : 1 ≤ k) {w : St α} {s : Mpmc.St α} {top : Nat → Nat}
    (h : Rel (2 ^ k) w s top) {t pos ts : Nat} {v : Option α} (hpc : w.pc t = .deqPub pos v)
    (hf : w.mem.free t (.seq (idx (2 ^ k) pos)) ts) :
    Rel (2 ^ k) { w.goto t .idle
          (w.mem.storeRel t (.seq (idx (2 ^ k) pos)) ts (pos + (2 ^ k - 1) + 1)) with
        rel := setf w.rel pos true, got := w.got ++ [(pos, v)] }
      { s.goto t .idle with
        seq := setf s.seq (idx (2 ^ k) pos) (pos + (2 ^ k - 1) + 1), rel := setf s.rel pos true
        got := s.got ++ [(pos, v)] }
      (setf top (idx (2 ^ k) pos) ts) := by
  have hn := two_le_pow hk
  rw [h.pc] at hpc
  have hinv := inv_step hk h.inv (Mpmc.Step.deqPub hpc)
  have hw := h.inv.rlt t pos (by rw [hpc]; rfl)
  have hcl := (h.inv.full pos (h.inv.deqPub pos hw.1) hw.2).1
  rw [← idx_eq] at hcl
  refine h.publish hn (t := t) (i := idx (2 ^ k) pos) (v := pos + (2 ^ k - 1) + 1) (ts := ts)
    ⟨pos, .inr (by rw [hpc]; rfl), (idx_eq _ _).symm⟩ hinv hf (by omega) rfl ?_ rfl ?_ h.log
    h.pub ?_ ?_ rfl rfl rfl ?_ ?_
  · simp only [St.goto, Mpmc.St.goto, h.pc]
  · exact h.data
  · simp only [h.rel]
  · simp only [h.got]
  · intro p hp hv u
    exfalso
    have h1 : pos + 2 ^ k = p + 1 := by omega
    have h2 : (pos + 2 ^ k) % 2 ^ k = p % 2 ^ k := by
      rw [Nat.add_mod_right, ← idx_eq, hp]
    exact mod_succ_ne hn h2 h1
  · intro p _; rfl

theorem rel_step {k : Nat} (hk : 1 ≤ k) {w w' : St α} {s : Mpmc.St α} {top : Nat → Nat}
    (h : Rel (2 ^ k) w s top) (hst : Step (2 ^ k) w w') :
    ∃ s' top', Rel (2 ^ k) w' s' top' := by
  have hn := two_le_pow hk
  have hinv := h.inv
  cases hst with
  | @other t hpc => exact ⟨s, top, h.grow (grow_other w.mem t)⟩
  | @callEnq t x ts m hpc hr =>
    rw [h.pc] at hpc
    exact ⟨_, _, h.load t (.enqSeq x m.val) (grow_loadRlx _ _ _ _) (by rw [hpc]; rfl)
      (by rw [hpc]; rfl) rfl rfl (by have := h.enq ts m hr.1; show _ ≤ _; omega) trivial⟩
  | @enqReload t x ts m hpc hr =>
    rw [h.pc] at hpc
    exact ⟨_, _, h.load t (.enqSeq x m.val) (grow_loadRlx _ _ _ _) (by rw [hpc]; rfl)
      (by rw [hpc]; rfl) rfl rfl (by have := h.enq ts m hr.1; show _ ≤ _; omega) trivial⟩
  | @enqCasFail t x pos ts m hpc hr =>
    rw [h.pc] at hpc
    exact ⟨_, _, h.load t (.enqSeq x m.val) (grow_loadRlx _ _ _ _) (by rw [hpc]; rfl)
      (by rw [hpc]; rfl) rfl rfl (by have := h.enq ts m hr.1; show _ ≤ _; omega) trivial⟩
  | @callDeq t ts m hpc hr =>
    rw [h.pc] at hpc
    exact ⟨_, _, h.load t (.deqSeq m.val) (grow_loadRlx _ _ _ _) (by rw [hpc]; rfl)
      (by rw [hpc]; rfl) rfl rfl (by have := h.deq ts m hr.1; show _ ≤ _; omega) trivial⟩
  | @deqReload t ts m hpc hr =>
    rw [h.pc] at hpc
    exact ⟨_, _, h.load t (.deqSeq m.val) (grow_loadRlx _ _ _ _) (by rw [hpc]; rfl)
      (by rw [hpc]; rfl) rfl rfl (by have := h.deq ts m hr.1; show _ ≤ _; omega) trivial⟩
  | @deqCasFail t pos ts m hpc hr =>
    rw [h.pc] at hpc
    exact ⟨_, _, h.load t (.deqSeq m.val) (grow_loadRlx _ _ _ _) (by rw [hpc]; rfl)
      (by rw [hpc]; rfl) rfl rfl (by have := h.deq ts m hr.1; show _ ≤ _; omega) trivial⟩
  | @enqSeq t x pos ts m hpc hr =>
    rw [h.pc] at hpc
    have hp := hinv.pcs t; rw [hpc] at hp
    have hle : pos ≤ s.enqPos := hp
    have hat := enqNext_at x pos m.val
    refine ⟨_, _, h.load t (enqNext x pos m.val) (grow_loadAcq _ _ _ _ _) (by rw [hpc]; rfl)
      (by rw [hpc]; rfl) hat.1 hat.2 ?_ ?_⟩
    · rcases enqNext_cases x pos m.val with ⟨h1, h2⟩ | ⟨h1, _⟩ | ⟨h1, _⟩ <;> rw [h1]
      · refine ⟨hle, ?_⟩
        rintro rfl hge
        apply stale_enq hn hinv hge
        have := (h.seqLe _ _ _ hr.1).1
        rw [idx_eq] at this; omega
      · trivial
      · trivial
    · rcases enqNext_cases x pos m.val with ⟨h1, h2⟩ | ⟨h1, _⟩ | ⟨h1, _⟩ <;> rw [h1]
      · have hrr := hr.1
        rw [idx_eq] at hrr ⊢
        refine ⟨ts, m, hrr, h2, ?_, ?_⟩
        · simp only [Mem.loadAcq, setf_self]
          exact Nat.le_trans (see_self _ _ _) (join_ts_left _ _ _)
        · intro u
          simp only [Mem.loadAcq, setf_self]
          exact join_clk_right _ _ _
      · trivial
      · trivial
  | @deqSeq t pos ts m hpc hr =>
    rw [h.pc] at hpc
    have hp := hinv.pcs t; rw [hpc] at hp
    have hle : pos ≤ s.deqPos := hp
    have hat := deqNext_at (α := α) pos m.val
    refine ⟨_, _, h.load t (deqNext pos m.val) (grow_loadAcq _ _ _ _ _) (by rw [hpc]; rfl)
      (by rw [hpc]; rfl) hat.1 hat.2 ?_ ?_⟩
    · rcases deqNext_cases (α := α) pos m.val with ⟨h1, h2⟩ | ⟨h1, _⟩ | ⟨h1, _⟩ <;> rw [h1]
      · refine ⟨hle, ?_⟩
        apply stale_deq hn hinv hle
        have := (h.seqLe _ _ _ hr.1).1
        rw [idx_eq] at this; omega
      · trivial
      · trivial
    · rcases deqNext_cases (α := α) pos m.val with ⟨h1, h2⟩ | ⟨h1, _⟩ | ⟨h1, _⟩ <;> rw [h1]
      · have hrr := hr.1
        rw [idx_eq] at hrr ⊢
        refine ⟨ts, m, hrr, h2, ?_, ?_⟩
        · simp only [Mem.loadAcq, setf_self]
          exact Nat.le_trans (see_self _ _ _) (join_ts_left _ _ _)
        · intro u
          simp only [Mem.loadAcq, setf_self]
          exact join_clk_right _ _ _
      · trivial
      · trivial
  | enqCasOk hpc hr hv hf => exact ⟨_, _, rel_enqCasOk hk h hpc hr hv hf⟩
  | deqCasOk hpc hr hv hf => exact ⟨_, _, rel_deqCasOk hk h hpc hr hv hf⟩
  | enqWrite hpc => exact ⟨_, _, rel_enqWrite hk h hpc⟩
  | deqRead hpc => exact ⟨_, _, rel_deqRead hk h hpc⟩
  | enqPub hpc hf => exact ⟨_, _, rel_enqPub hk h hpc hf⟩
  | deqPub hpc hf => exact ⟨_, _, rel_deqPub hk h hpc hf⟩

theorem rel_reachable {k : Nat} (hk : 1 ≤ k) {w : St α} (h : Reachable (2 ^ k) w) :
    ∃ s top, Rel (2 ^ k) w s top := by
  induction h with
  | init => exact ⟨_, _, rel_init _⟩
  | step _ hst ih => obtain ⟨s, top, ih⟩ := ih; exact rel_step hk ih hst

end Phosphor.Mpmc.W
