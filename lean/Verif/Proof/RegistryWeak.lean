import Verif.Model.RegistryWeak
import Verif.Proof.CategoryRegistryConc
import Verif.Proof.Weak
namespace Phosphor.RegConc.W
open Phosphor.Weak

/-- `v` knows no more than `v'`. -/
def Le (v v' : View Loc) : Prop := (∀ l, v.ts l ≤ v'.ts l) ∧ ∀ u, v.clk u ≤ v'.clk u

theorem Le.refl (v : View Loc) : Le v v := ⟨fun _ => Nat.le_refl _, fun _ => Nat.le_refl _⟩
theorem Le.trans {a b c : View Loc} (h : Le a b) (h' : Le b c) : Le a c :=
  ⟨fun l => Nat.le_trans (h.1 l) (h'.1 l), fun u => Nat.le_trans (h.2 u) (h'.2 u)⟩
theorem le_see (v : View Loc) (l : Loc) (ts : Nat) : Le v (v.see l ts) :=
  ⟨fun _ => see_ts _ _ _ _, fun _ => Nat.le_refl _⟩
theorem le_join_left (v v' : View Loc) : Le v (v.join v') :=
  ⟨fun _ => Nat.le_max_left _ _, fun _ => Nat.le_max_left _ _⟩
theorem le_join_right (v v' : View Loc) : Le v' (v.join v') :=
  ⟨fun _ => Nat.le_max_right _ _, fun _ => Nat.le_max_right _ _⟩
theorem le_tick (v : View Loc) (t : Nat) : Le v (v.tick t) :=
  ⟨fun _ => Nat.le_refl _, fun _ => tick_clk _ _ _⟩
theorem le_setf {μ : Nat → View Loc} {t : Nat} {v : View Loc} (h : Le (μ t) v) (u : Nat) :
    Le (μ u) (setf μ t v u) := by
  by_cases e : u = t
  · subst e; rw [setf_self]; exact h
  · rw [setf_ne _ _ e]; exact Le.refl _

/-- The program counter in the sequentially consistent model. -/
def erase : Pc → RegConc.Pc
  | .reg p _ => p
  | _ => .idle

theorem erase_setf (f : Nat → Pc) (t : Nat) (p : Pc) :
    (fun u => erase (setf f t p u)) = upd (fun u => erase (f u)) t (erase p) := by
  funext u
  by_cases e : u = t
  · subst e; rw [setf_self, upd_self]
  · rw [setf_ne _ _ e, upd_ne _ _ e]

theorem erase_ret (tp : Option Nat) (i : Nat) : erase (ret tp i) = .idle := by cases tp <;> rfl

/-- Newest timestamps of the count and of the statuses, timestamp with which a cell was
registered, and statuses as the mutex holder sees them. -/
structure Ghost where
  ct : Nat
  st : Nat → Nat
  ft : Nat → Nat
  σ : Nat → Bool

/-- The state of the sequentially consistent model. -/
def sc (w : St) (g : Ghost) : RegConc.St :=
  ⟨w.groups, g.σ, 3 + g.ct, w.enabled, w.disabled, w.mutex, fun t => erase (w.pc t), w.results⟩

theorem sc_ext {a b : RegConc.St} (h1 : a.groups = b.groups) (h2 : a.statuses = b.statuses)
    (h3 : a.count = b.count) (h4 : a.enabled = b.enabled) (h5 : a.disabled = b.disabled)
    (h6 : a.mutex = b.mutex) (h7 : a.pc = b.pc) (h8 : a.results = b.results) : a = b := by
  cases a; cases b; simp_all

/-- Whoever knows of a count knows of the names and statuses it counts. -/
def VOk (wr : Plain → Clock) (g : Ghost) (v : View Loc) : Prop :=
  v.ts .count ≤ g.ct ∧ ∀ i, i < 3 + v.ts .count →
    (∀ u, wr (.group i) u ≤ v.clk u) ∧ g.ft i ≤ v.ts (.status i)

/-- What the holder of the mutex knows. -/
def Full (μ : Mem Loc Nat Plain) (g : Ghost) (v : View Loc) : Prop :=
  g.ct ≤ v.ts .count ∧ (∀ i, g.st i ≤ v.ts (.status i)) ∧
  ∀ u, (μ.wr .en u ≤ v.clk u ∧ μ.rd .en u ≤ v.clk u) ∧
    (μ.wr .dis u ≤ v.clk u ∧ μ.rd .dis u ≤ v.clk u) ∧
    (∀ i, μ.wr (.group i) u ≤ v.clk u) ∧ ∀ i, 3 + g.ct ≤ i → μ.rd (.group i) u ≤ v.clk u

/-- The knowledge that goes with the mutex. -/
def mutexView (w : St) : View Loc :=
  match w.mutex with
  | some t => w.mem.view t
  | none => w.mview

/-- The group being looked up. -/
def name : RegConc.Pc → Option Str
  | .scan1 n _ _ | .wantLock n | .locked n | .scan2 n _ _ | .writeGroup n _ | .writeStatus n _
  | .bump n _ | .unlockRet n _ => some n
  | _ => none

/-- What is known about a thread at each program counter. -/
def PcW (cat : Nat → Str) (s : RegConc.St) (g : Ghost) (born : Nat → Nat → Nat) (len : Nat)
    (v : View Loc) : Pc → Prop
  | .idle => True
  | .look _ => True
  | .storing p i => i < 3 + v.ts .count ∧ ResOk s (cat p) i
  | .testing p i => i < 3 + v.ts .count ∧ ResOk s (cat p) i
  | .reg q tp => (∀ p n, tp = some p → name q = some n → n = cat p) ∧
      match q with
      | .scan1 _ c _ => c ≤ 3 + v.ts .count
      | .bump _ c => g.ft c = g.st c ∧ born c (g.st c) = len - 1
      | .uLoop _ _ i => ∀ j, j < i → born j (g.st j) = len - 1
      | _ => True

structure Rel (cat : Nat → Str) (w : St) (g : Ghost) : Prop where
  inv : Inv (sc w g)
  vok : ∀ t, VOk w.mem.wr g (w.mem.view t)
  mok : VOk w.mem.wr g w.mview
  hok : ∀ l ts m, w.mem.hist l ts = some m → VOk w.mem.wr g m.view
  cmsg : ∀ ts m, w.mem.hist .count ts = some m →
    ts ≤ g.ct ∧ m.val = 3 + ts ∧ ts ≤ m.view.ts .count
  smsg : ∀ i ts m, w.mem.hist (.status i) ts = some m → ts ≤ g.st i
  top : ∀ i, ∃ m, w.mem.hist (.status i) (g.st i) = some m
  ftMsg : ∀ i, i < 3 + g.ct → ∃ m, w.mem.hist (.status i) (g.ft i) = some m
  full : Full w.mem g (mutexView w)
  low : ∀ i, i < 3 → (∀ u, w.mem.wr (.group i) u = 0) ∧ g.ft i = 0
  ptr : ∀ p ts m, w.mem.hist (.ptr p) ts = some m → m.val ≠ 0 →
    m.val - 1 < 3 + m.view.ts .count ∧ ResOk (sc w g) (cat p) (m.val - 1)
  pcs : ∀ t, PcW cat (sc w g) g w.born w.confs.length (w.mem.view t) (w.pc t)
  ne : 0 < w.confs.length
  last : (∀ t u tp, w.pc t ≠ .reg (.uDis u) tp) →
    w.confs[w.confs.length - 1]? = some (w.enabled, w.disabled)
  bornLt : ∀ i ts m, w.mem.hist (.status i) ts = some m → w.born i ts < w.confs.length
  bornMono : ∀ i ts ts' m m', w.mem.hist (.status i) ts = some m →
    w.mem.hist (.status i) ts' = some m' → ts ≤ ts' → w.born i ts ≤ w.born i ts'
  bornVal : ∀ i ts m, i < 3 + g.ct ∨ (∃ t n tp, w.pc t = .reg (.bump n i) tp) →
    w.mem.hist (.status i) ts = some m → g.ft i ≤ ts →
    ∃ c, w.confs[w.born i ts]? = some c ∧ m.val = num (calculateEnabled (w.groups i) c.1 c.2)
  finOk : ∀ k v, w.fin k = some v → k < w.confs.length ∧ ∀ i, i < 3 + g.ct →
    k ≤ w.born i (g.ft i) ∨
    ∃ ts m, w.mem.hist (.status i) ts = some m ∧ ts ≤ v.ts (.status i) ∧ k ≤ w.born i ts

theorem VOk.join {wr g v v'} (h : VOk wr g v) (h' : VOk wr g v') : VOk wr g (v.join v') := by
  refine ⟨Nat.max_le.2 ⟨h.1, h'.1⟩, ?_⟩
  intro i hi
  have hi : i < 3 + max (v.ts .count) (v'.ts .count) := hi
  by_cases hc : i < 3 + v.ts .count
  · have := h.2 i hc
    exact ⟨fun u => Nat.le_trans (this.1 u) (join_clk_left _ _ _),
      Nat.le_trans this.2 (join_ts_left _ _ _)⟩
  · have := h'.2 i (by omega)
    exact ⟨fun u => Nat.le_trans (this.1 u) (join_clk_right _ _ _),
      Nat.le_trans this.2 (Nat.le_max_right _ _)⟩

/-- A view that knows more, but of no newer count. -/
theorem VOk.mono {wr g v v'} (h : VOk wr g v) (hl : Le v v') (hc : v'.ts .count = v.ts .count) :
    VOk wr g v' := by
  refine ⟨by rw [hc]; exact h.1, ?_⟩
  rw [hc]; intro i hi
  have := h.2 i hi
  exact ⟨fun u => Nat.le_trans (this.1 u) (hl.2 u), Nat.le_trans this.2 (hl.1 _)⟩

theorem see_count {v : View Loc} {l : Loc} {ts : Nat} (h : l ≠ .count) :
    (v.see l ts).ts .count = v.ts .count := if_neg (fun e => h e.symm)

/-- An acquire load. -/
theorem Rel.vokLoad {cat w g} (h : Rel cat w g) {t : Nat} {l : Loc} {ts : Nat} {m : Msg Loc Nat}
    (hm : w.mem.hist l ts = some m) : VOk w.mem.wr g (((w.mem.view t).see l ts).join m.view) := by
  by_cases hl : l = .count
  · subst hl
    have h1 := (h.cmsg _ _ hm).2.2
    have h2 := (h.vok t).join (h.hok _ _ _ hm)
    refine h2.mono ⟨?_, fun _ => Nat.le_refl _⟩ ?_
    · intro k
      show max _ _ ≤ max _ _
      have := see_ts (w.mem.view t) .count k ts
      omega
    · have : ((w.mem.view t).see .count ts).ts .count = max ((w.mem.view t).ts .count) ts := by
        simp [View.see]
      show max (((w.mem.view t).see .count ts).ts .count) _ = max _ _
      rw [this]; omega
  · exact ((h.vok t).mono (le_see _ _ _) (see_count hl)).join (h.hok _ _ _ hm)

theorem PcW.mono {cat s g born len v v' p} (h : PcW cat s g born len v p)
    (hv : v.ts .count ≤ v'.ts .count) : PcW cat s g born len v' p := by
  cases p with
  | idle => trivial
  | look => trivial
  | storing => exact ⟨by have := h.1; omega, h.2⟩
  | testing => exact ⟨by have := h.1; omega, h.2⟩
  | reg q tp =>
    refine ⟨h.1, ?_⟩
    have h2 := h.2
    cases q <;> first | trivial | exact h2 | (dsimp only at h2 ⊢; omega)

theorem Full.mono {μ μ' : Mem Loc Nat Plain} {g : Ghost} {v v' : View Loc} (h : Full μ g v)
    (hl : Le v v') (hwr : μ'.wr = μ.wr) (hen : μ'.rd .en = μ.rd .en) (hdis : μ'.rd .dis = μ.rd .dis)
    (hrd : ∀ i, 3 + g.ct ≤ i → μ'.rd (.group i) = μ.rd (.group i)) : Full μ' g v' := by
  refine ⟨Nat.le_trans h.1 (hl.1 _), fun i => Nat.le_trans (h.2.1 i) (hl.1 _), fun u => ?_⟩
  obtain ⟨⟨a, b⟩, ⟨c, d⟩, e, f⟩ := h.2.2 u
  have hu := hl.2 u
  rw [hwr, hen, hdis]
  refine ⟨⟨by omega, by omega⟩, ⟨by omega, by omega⟩, fun i => Nat.le_trans (e i) hu, fun i hi => ?_⟩
  rw [hrd i hi]; exact Nat.le_trans (f i hi) hu

/-- A step that does not touch what the mutex protects. -/
theorem Rel.quiet {cat : Nat → Str} {w w' : St} {g : Ghost} (h : Rel cat w g) (t : Nat)
    (hg : w'.groups = w.groups) (he : w'.enabled = w.enabled) (hd : w'.disabled = w.disabled)
    (hm : w'.mutex = w.mutex) (hmv : w'.mview = w.mview) (hcf : w'.confs = w.confs)
    (hb : w'.born = w.born) (hf : w'.fin = w.fin)
    (hc : w'.mem.hist .count = w.mem.hist .count)
    (hs : ∀ i, w'.mem.hist (.status i) = w.mem.hist (.status i))
    (hh : ∀ l ts m, w'.mem.hist l ts = some m →
      w.mem.hist l ts = some m ∨ VOk w.mem.wr g m.view)
    (hptr : ∀ p ts m, w'.mem.hist (.ptr p) ts = some m → w.mem.hist (.ptr p) ts = some m ∨
      (m.val - 1 < 3 + m.view.ts .count ∧ ResOk (sc w g) (cat p) (m.val - 1)))
    (hwr : w'.mem.wr = w.mem.wr)
    (hen : w'.mem.rd .en = w.mem.rd .en) (hdis : w'.mem.rd .dis = w.mem.rd .dis)
    (hrd : ∀ i, 3 + g.ct ≤ i → w'.mem.rd (.group i) = w.mem.rd (.group i))
    (hv : ∀ u, Le (w.mem.view u) (w'.mem.view u)) (hvok : VOk w.mem.wr g (w'.mem.view t))
    (hvne : ∀ u, u ≠ t → w'.mem.view u = w.mem.view u)
    (hpc : w'.pc = setf w.pc t (w'.pc t))
    (hpok : PcOk (sc w g) t (erase (w'.pc t)))
    (hpw : PcW cat (sc w g) g w.born w.confs.length (w'.mem.view t) (w'.pc t))
    (hnd : (∀ u tp, w'.pc t ≠ .reg (.uDis u) tp) → ∀ u tp, w.pc t ≠ .reg (.uDis u) tp)
    (hnb : ∀ n i tp, w'.pc t = .reg (.bump n i) tp → w.pc t = .reg (.bump n i) tp)
    (hr : ∀ q ∈ w'.results, q ∈ w.results ∨ ResOk (sc w g) q.1 q.2) : Rel cat w' g := by
  have hpcu : ∀ u, u ≠ t → w'.pc u = w.pc u := by
    intro u hu; rw [hpc, setf_ne _ _ hu]
  have hinv : Inv (sc w' g) := by
    refine inv_local (t := t) (p := erase (w'.pc t)) h.inv hg rfl rfl he hd hm ?_ hpok hr
    show (fun u => erase (w'.pc u)) = _
    rw [hpc, erase_setf, setf_self]; rfl
  have hres : ∀ n i, ResOk (sc w g) n i → ResOk (sc w' g) n i := by
    intro n i hi; simpa only [ResOk, sc, hg] using hi
  have hmut : Le (mutexView w) (mutexView w') := by
    unfold mutexView; rw [hm]
    split
    · exact hv _
    · rw [hmv]; exact Le.refl _
  have hpcres : ∀ v p, PcW cat (sc w g) g w.born w.confs.length v p →
      PcW cat (sc w' g) g w'.born w'.confs.length v p := by
    intro v p hp
    rw [hb, hcf]
    cases p with
    | idle => trivial
    | look => trivial
    | storing => exact ⟨hp.1, hres _ _ hp.2⟩
    | testing => exact ⟨hp.1, hres _ _ hp.2⟩
    | reg q tp => exact hp
  exact {
    inv := hinv
    vok := by
      intro u; rw [hwr]
      by_cases e : u = t
      · subst e; exact hvok
      · rw [hvne u e]; exact h.vok u
    mok := by rw [hwr, hmv]; exact h.mok
    hok := by
      intro l ts m hl; rw [hwr]
      rcases hh l ts m hl with h1 | h1
      · exact h.hok l ts m h1
      · exact h1
    cmsg := by rw [hc]; exact h.cmsg
    smsg := by intro i; rw [hs]; exact h.smsg i
    top := by intro i; rw [hs]; exact h.top i
    ftMsg := by intro i; rw [hs]; exact h.ftMsg i
    full := h.full.mono hmut hwr hen hdis hrd
    low := by rw [hwr]; exact h.low
    ptr := by
      intro p ts m hl hne
      rcases hptr p ts m hl with h1 | h1
      · have := h.ptr p ts m h1 hne; exact ⟨this.1, hres _ _ this.2⟩
      · exact ⟨h1.1, hres _ _ h1.2⟩
    pcs := by
      intro u
      apply hpcres
      by_cases e : u = t
      · subst e; exact hpw
      · rw [hpcu u e]; exact (h.pcs u).mono ((hv u).1 _)
    ne := by rw [hcf]; exact h.ne
    last := by
      intro hno
      rw [hcf, he, hd]
      apply h.last
      intro u x tp
      by_cases e : u = t
      · subst e; exact hnd (hno u) x tp
      · rw [← hpcu u e]; exact hno u x tp
    bornLt := by intro i; rw [hs, hb, hcf]; exact h.bornLt i
    bornMono := by intro i; rw [hs, hb]; exact h.bornMono i
    bornVal := by
      intro i; rw [hs, hb, hcf, hg]
      rintro ts m (h1 | ⟨u, n, tp, h1⟩) h2 h3
      · exact h.bornVal i ts m (.inl h1) h2 h3
      · by_cases e : u = t
        · subst e; exact h.bornVal i ts m (.inr ⟨u, n, tp, hnb _ _ _ h1⟩) h2 h3
        · rw [hpcu u e] at h1; exact h.bornVal i ts m (.inr ⟨u, n, tp, h1⟩) h2 h3
    finOk := by
      intro k v; rw [hf, hcf, hb]
      intro hk
      obtain ⟨h1, h2⟩ := h.finOk k v hk
      refine ⟨h1, fun i hi => ?_⟩
      rw [hs]; exact h2 i hi }

theorem setf_same (f : Nat → Pc) (t : Nat) : f = setf f t (f t) := by
  funext u
  by_cases e : u = t
  · subst e; rw [setf_self]
  · rw [setf_ne _ _ e]

theorem rel_init (cat : Nat → Str) : Rel cat St.init ⟨0, fun _ => 0, fun _ => 0, fun _ => false⟩ := by
  have hb : ∀ g : Ghost, VOk (fun _ _ => 0) ⟨0, fun _ => 0, fun _ => 0, g.σ⟩ (View.bot) :=
    fun g => ⟨Nat.le_refl _, fun i _ => ⟨fun _ => Nat.le_refl _, Nat.le_refl _⟩⟩
  have hmsg : ∀ l ts m, St.init.mem.hist l ts = some m → ts = 0 ∧ m.view = View.bot ∧
      m.val = match l with | .count => 3 | _ => 0 := by
    intro l ts m hl
    simp only [St.init, Mem.init] at hl
    split at hl
    · next h0 => cases hl; exact ⟨h0, rfl, rfl⟩
    · cases hl
  exact {
    inv := by
      have := RegConc.inv_init
      exact this
    vok := fun _ => hb ⟨0, fun _ => 0, fun _ => 0, fun _ => false⟩
    mok := hb ⟨0, fun _ => 0, fun _ => 0, fun _ => false⟩
    hok := by
      intro l ts m hl; rw [(hmsg l ts m hl).2.1]; exact hb ⟨0, fun _ => 0, fun _ => 0, fun _ => false⟩
    cmsg := by
      intro ts m hl; obtain ⟨h1, h2, h3⟩ := hmsg _ _ _ hl
      subst h1; exact ⟨Nat.le_refl _, h3, Nat.zero_le _⟩
    smsg := by intro i ts m hl; rw [(hmsg _ _ _ hl).1]; exact Nat.le_refl _
    top := fun i => ⟨_, rfl⟩
    ftMsg := fun i _ => ⟨_, rfl⟩
    full := ⟨Nat.le_refl _, fun _ => Nat.le_refl _, fun _ => ⟨⟨Nat.le_refl _, Nat.le_refl _⟩,
      ⟨Nat.le_refl _, Nat.le_refl _⟩, fun _ => Nat.le_refl _, fun _ _ => Nat.le_refl _⟩⟩
    low := fun _ _ => ⟨fun _ => rfl, rfl⟩
    ptr := by intro p ts m hl hne; exact absurd (hmsg _ _ _ hl).2.2 hne
    pcs := fun _ => trivial
    ne := Nat.one_pos
    last := fun _ => rfl
    bornLt := fun _ _ _ _ => Nat.one_pos
    bornMono := fun _ _ _ _ _ _ _ _ => Nat.le_refl _
    bornVal := by
      intro i ts m _ hl _
      refine ⟨([], []), rfl, ?_⟩
      rw [(hmsg _ _ _ hl).2.2]
      simp [calculateEnabled_nil, num]
    finOk := by intro k v hk; cases hk }

/-- The holder of the mutex, by program counter. -/
theorem Rel.holder {cat w g} (h : Rel cat w g) {t : Nat} {q : RegConc.Pc} {tp : Option Nat}
    (hp : w.pc t = .reg q tp) : PcOk (sc w g) t q := by
  have := h.inv.pcs t
  simp only [sc, hp, erase] at this
  exact this

/-- Threads that do not hold the mutex keep what is known about them. -/
theorem Rel.others {cat : Nat → Str} {w : St} {g g' : Ghost} {s' : RegConc.St} {born' : Nat → Nat → Nat}
    {len' : Nat} (h : Rel cat w g) {t : Nat} (ho : w.mutex = some t)
    (hres : ∀ n i, ResOk (sc w g) n i → ResOk s' n i) {u : Nat} (hu : u ≠ t) :
    PcW cat s' g' born' len' (w.mem.view u) (w.pc u) := by
  have h1 := h.pcs u
  have h2 := h.inv.pcs u
  have hne : (sc w g).mutex ≠ some u := by
    show w.mutex ≠ _; rw [ho]; simpa using fun e => hu e.symm
  revert h1 h2
  generalize hp : w.pc u = p
  intro h1 h2
  simp only [sc, hp] at h2
  cases p with
  | idle => trivial
  | look => trivial
  | storing => exact ⟨h1.1, hres _ _ h1.2⟩
  | testing => exact ⟨h1.1, hres _ _ h1.2⟩
  | reg q tp =>
    refine ⟨h1.1, ?_⟩
    cases q <;> first | trivial | exact h1.2 | skip
    · exact absurd h2.2.1 hne
    · exact absurd h2.1 hne

theorem Rel.mview {cat w g} (h : Rel cat w g) {t : Nat} (ho : w.mutex = some t) :
    Full w.mem g (w.mem.view t) := by
  have := h.full; unfold mutexView at this; rw [ho] at this; exact this

theorem Rel.inside {cat w g} (h : Rel cat w g) {t u : Nat} (ho : w.mutex = some t)
    {q : RegConc.Pc} {tp : Option Nat} (hp : w.pc u = .reg q tp)
    (hq : PcOk (sc w g) u q → (sc w g).mutex = some u) : u = t := by
  have h1 := hq (h.holder hp)
  have h1 : w.mutex = some u := h1
  rw [ho] at h1; cases h1; rfl

/-- The holder writes a plain location. -/
theorem Rel.plainWrite {cat : Nat → Str} {w w' : St} {g : Ghost} (h : Rel cat w g) {t : Nat}
    (ho : w.mutex = some t) {d : Plain} (hd : d = .en ∨ d = .dis ∨ d = .group (3 + g.ct))
    (hmem : w'.mem = w.mem.write t d) (hinv : Inv (sc w' g)) {p : Pc}
    (hpc : w'.pc = setf w.pc t p) (hm : w'.mutex = w.mutex) (hmv : w'.mview = w.mview)
    (hb : w'.born = w.born) (hf : w'.fin = w.fin)
    (hg : ∀ i, i < 3 + g.ct → w'.groups i = w.groups i)
    (hcf : ∃ x, w'.confs = w.confs ++ x)
    (hres : ∀ n i, ResOk (sc w g) n i → ResOk (sc w' g) n i)
    (hlast : (∀ u tp, p ≠ .reg (.uDis u) tp) →
      w'.confs[w'.confs.length - 1]? = some (w'.enabled, w'.disabled))
    (hnb : ∀ n i tp, p ≠ .reg (.bump n i) tp)
    (hnb' : ∀ n i tp, w.pc t ≠ .reg (.bump n i) tp)
    (hpw : PcW cat (sc w' g) g w'.born w'.confs.length (w.mem.view t) p) : Rel cat w' g := by
  obtain ⟨x, hcf⟩ := hcf
  have hlen : w.confs.length ≤ w'.confs.length := by rw [hcf]; simp
  have hget : ∀ (k : Nat) c, w.confs[k]? = some c → w'.confs[k]? = some c := by
    intro k c hk
    have := (List.getElem?_eq_some_iff.1 hk).1
    rw [hcf, List.getElem?_append_left this]; exact hk
  have hwrt : w'.mem.view = setf w.mem.view t ((w.mem.view t).tick t) := by rw [hmem]; rfl
  have hwr : ∀ k u, w'.mem.wr k u =
      if k = d then setf (w.mem.wr d) t ((w.mem.view t).clk t + 1) u else w.mem.wr k u := by
    intro k u; rw [hmem]; unfold Mem.write; dsimp only; split <;> rfl
  have hrd : w'.mem.rd = w.mem.rd := by rw [hmem]; rfl
  have hhist : w'.mem.hist = w.mem.hist := by rw [hmem]; rfl
  have hgrp : ∀ i, i < 3 + g.ct → w'.mem.wr (.group i) = w.mem.wr (.group i) := by
    intro i hi; funext u; rw [hwr, if_neg]
    rintro rfl
    rcases hd with hd | hd | hd <;> cases hd
    omega
  have hvok : ∀ v, VOk w.mem.wr g v → VOk w'.mem.wr g v := by
    intro v hv
    refine ⟨hv.1, fun i hi => ?_⟩
    rw [hgrp i (by have := hv.1; omega)]; exact hv.2 i hi
  have hfull := h.mview ho
  have hwrb : ∀ k u, w.mem.wr k u ≤ (w.mem.view t).clk u →
      w'.mem.wr k u ≤ ((w.mem.view t).tick t).clk u := by
    intro k u hk
    rw [hwr]
    split
    · next e =>
      subst e
      by_cases eu : u = t
      · subst eu; rw [setf_self]; simp [View.tick]
      · rw [setf_ne _ _ eu]; exact Nat.le_trans hk (tick_clk _ _ _)
    · exact Nat.le_trans hk (tick_clk _ _ _)
  exact {
    inv := hinv
    vok := by
      intro u; rw [hwrt]
      by_cases e : u = t
      · subst e; rw [setf_self]; exact hvok _ ((h.vok u).mono (le_tick _ _) rfl)
      · rw [setf_ne _ _ e]; exact hvok _ (h.vok u)
    mok := by rw [hmv]; exact hvok _ h.mok
    hok := by rw [hhist]; intro l ts m hl; exact hvok _ (h.hok l ts m hl)
    cmsg := by rw [hhist]; exact h.cmsg
    smsg := by rw [hhist]; exact h.smsg
    top := by rw [hhist]; exact h.top
    ftMsg := by rw [hhist]; exact h.ftMsg
    full := by
      unfold mutexView; rw [hm, ho]; dsimp only; rw [hwrt, setf_self]
      refine ⟨hfull.1, hfull.2.1, fun u => ?_⟩
      obtain ⟨⟨a, b⟩, ⟨c, d⟩, e, f⟩ := hfull.2.2 u
      have htk := tick_clk (w.mem.view t) t u
      rw [hrd]
      exact ⟨⟨hwrb _ _ a, Nat.le_trans b htk⟩, ⟨hwrb _ _ c, Nat.le_trans d htk⟩,
        fun i => hwrb _ _ (e i), fun i hi => Nat.le_trans (f i hi) htk⟩
    low := by
      intro i hi; rw [hgrp i (by omega)]; exact h.low i hi
    ptr := by
      rw [hhist]; intro p ts m hl hne
      have := h.ptr p ts m hl hne
      exact ⟨this.1, hres _ _ this.2⟩
    pcs := by
      intro u; rw [hpc, hwrt]
      by_cases e : u = t
      · subst e; rw [setf_self, setf_self]; exact hpw.mono (Nat.le_refl _)
      · rw [setf_ne _ _ e, setf_ne _ _ e]; exact h.others ho hres e
    ne := by have := h.ne; omega
    last := by
      intro hno
      apply hlast
      have := hno t
      rw [hpc, setf_self] at this; exact this
    bornLt := by
      intro i ts m hl; rw [hhist] at hl; rw [hb]
      have := h.bornLt i ts m hl; omega
    bornMono := by rw [hhist, hb]; exact h.bornMono
    bornVal := by
      rw [hhist, hb]
      intro i ts m hi hl hft
      have hi : i < 3 + g.ct := by
        rcases hi with hi | ⟨u, n, tp, hu⟩
        · exact hi
        · exfalso
          by_cases e : u = t
          · subst e; rw [hpc, setf_self] at hu; exact hnb _ _ _ hu
          · rw [hpc, setf_ne _ _ e] at hu
            exact e (h.inside ho hu (fun hq => hq.2.1))
      obtain ⟨c, h1, h2⟩ := h.bornVal i ts m (.inl hi) hl hft
      exact ⟨c, hget _ _ h1, by rw [hg i hi]; exact h2⟩
    finOk := by
      rw [hhist, hb, hf]
      intro k v hk
      obtain ⟨h1, h2⟩ := h.finOk k v hk
      exact ⟨by omega, h2⟩ }

/-- The holder stores a status. -/
theorem Rel.statusStore {cat : Nat → Str} {w w' : St} {g g' : Ghost} (h : Rel cat w g) {t : Nat}
    (ho : w.mutex = some t) {i ts : Nat} {mv : View Loc} {val : Nat}
    (hfree : w.mem.free t (.status i) ts)
    (hhist : ∀ l k, w'.mem.hist l k =
      if l = .status i ∧ k = ts then some ⟨val, mv⟩ else w.mem.hist l k)
    (hmvok : VOk w.mem.wr g mv ∧ (i = 3 + g.ct → mv.ts .count ≤ g.ct))
    (hwr : w'.mem.wr = w.mem.wr) (hv : ∃ v, w'.mem.view = setf w.mem.view t v ∧
      Le (w.mem.view t) v ∧ v.ts .count = (w.mem.view t).ts .count ∧ ts ≤ v.ts (.status i) ∧
      ∀ k u, (k = .en ∨ k = .dis ∨ ∃ j, k = .group j) → w.mem.rd k u ≤ (w.mem.view t).clk u →
        w'.mem.rd k u ≤ v.clk u)
    (hg : w'.groups = w.groups) (he : w'.enabled = w.enabled) (hd : w'.disabled = w.disabled)
    (hm : w'.mutex = w.mutex) (hmv : w'.mview = w.mview) (hcf : w'.confs = w.confs)
    (hb : w'.born = setf w.born i (setf (w.born i) ts (w.confs.length - 1)))
    (hf : w'.fin = w.fin) {p : Pc}
    (hpc : w'.pc = setf w.pc t p)
    (hct : g'.ct = g.ct) (hst : g'.st = setf g.st i ts)
    (hft : (i < 3 + g.ct ∧ g'.ft = g.ft) ∨ (i = 3 + g.ct ∧ g'.ft = setf g.ft i ts))
    (hinv : Inv (sc w' g'))
    (hval : ∃ c, w.confs[w.confs.length - 1]? = some c ∧
      val = num (calculateEnabled (w.groups i) c.1 c.2))
    (hnd : ∀ u tp, w.pc t ≠ .reg (.uDis u) tp)
    (hnb : ∀ n j tp, p = .reg (.bump n j) tp → j = i)
    (hpw : PcW cat (sc w' g') g' w'.born w'.confs.length (w.mem.view t) p) : Rel cat w' g' := by
  obtain ⟨v, hview, hvle, hvc, hvts, hvrd⟩ := hv
  have hfull := h.mview ho
  have hlt : g.st i < ts := Nat.lt_of_le_of_lt (hfull.2.1 i) hfree.2
  have hold : ∀ l k m, w.mem.hist l k = some m → w'.mem.hist l k = some m := by
    intro l k m hl; rw [hhist, if_neg]; exact hl
    rintro ⟨rfl, rfl⟩; rw [hfree.1] at hl; cases hl
  have hne : ∀ l, l ≠ .status i → ∀ k, w'.mem.hist l k = w.mem.hist l k := by
    intro l hl k; rw [hhist, if_neg]; exact fun e => hl e.1
  have hnew : ∀ j k m, w'.mem.hist (.status j) k = some m →
      (j = i ∧ k = ts ∧ m = ⟨val, mv⟩) ∨ w.mem.hist (.status j) k = some m := by
    intro j k m hl; rw [hhist] at hl; split at hl
    · next e => cases e.1; cases hl; exact .inl ⟨rfl, e.2, rfl⟩
    · exact .inr hl
  have hftlt : ∀ j, j < 3 + g.ct → g'.ft j = g.ft j := by
    intro j hj
    rcases hft with ⟨_, e⟩ | ⟨h1, e⟩
    · rw [e]
    · rw [e, setf_ne _ _ (by omega)]
  have hvok : ∀ v, VOk w.mem.wr g v → VOk w'.mem.wr g' v := by
    intro v hv
    refine ⟨by rw [hct]; exact hv.1, fun j hj => ?_⟩
    rw [hwr, hftlt j (by have := hv.1; omega)]; exact hv.2 j hj
  have hbornold : ∀ j k m, w.mem.hist (.status j) k = some m → w'.born j k = w.born j k := by
    intro j k m hl
    rw [hb]
    by_cases e : j = i
    · subst e; rw [setf_self]
      by_cases e' : k = ts
      · subst e'; rw [hfree.1] at hl; cases hl
      · rw [setf_ne _ _ e']
    · rw [setf_ne _ _ e]
  have hbornnew : w'.born i ts = w.confs.length - 1 := by rw [hb, setf_self, setf_self]
  have hres : ∀ n j, ResOk (sc w g) n j → ResOk (sc w' g') n j := by
    intro n j hj; simpa only [ResOk, sc, hg, hct] using hj
  have hpos := h.ne
  exact {
    inv := hinv
    vok := by
      intro u; rw [hview]
      by_cases e : u = t
      · subst e; rw [setf_self]; exact hvok _ ((h.vok u).mono hvle hvc)
      · rw [setf_ne _ _ e]; exact hvok _ (h.vok u)
    mok := by rw [hmv]; exact hvok _ h.mok
    hok := by
      intro l k m hl; rw [hhist] at hl; split at hl
      · cases hl; exact hvok _ hmvok.1
      · exact hvok _ (h.hok l k m hl)
    cmsg := by
      intro k m hl; rw [hne _ (by simp)] at hl; rw [hct]; exact h.cmsg k m hl
    smsg := by
      intro j k m hl
      rw [hst]
      rcases hnew j k m hl with ⟨rfl, rfl, rfl⟩ | h1
      · rw [setf_self]; exact Nat.le_refl _
      · have := h.smsg j k m h1
        by_cases e : j = i
        · subst e; rw [setf_self]; omega
        · rw [setf_ne _ _ e]; exact this
    top := by
      intro j; rw [hst]
      by_cases e : j = i
      · subst e; rw [setf_self, hhist, if_pos ⟨rfl, rfl⟩]; exact ⟨_, rfl⟩
      · rw [setf_ne _ _ e]; obtain ⟨m, h1⟩ := h.top j; exact ⟨m, hold _ _ _ h1⟩
    ftMsg := by
      intro j hj; rw [hct] at hj; rw [hftlt j hj]
      obtain ⟨m, h1⟩ := h.ftMsg j hj; exact ⟨m, hold _ _ _ h1⟩
    full := by
      unfold mutexView; rw [hm, ho]; dsimp only; rw [hview, setf_self]
      refine ⟨by rw [hct, hvc]; exact hfull.1, fun j => ?_, fun u => ?_⟩
      · rw [hst]
        by_cases e : j = i
        · subst e; rw [setf_self]; exact hvts
        · rw [setf_ne _ _ e]; exact Nat.le_trans (hfull.2.1 j) (hvle.1 _)
      · obtain ⟨⟨a, b⟩, ⟨c, d⟩, e, f⟩ := hfull.2.2 u
        have hu := hvle.2 u
        rw [hwr]
        refine ⟨⟨by omega, hvrd _ _ (.inl rfl) b⟩, ⟨by omega, hvrd _ _ (.inr (.inl rfl)) d⟩,
          fun j => Nat.le_trans (e j) hu, fun j hj => ?_⟩
        rw [hct] at hj
        exact hvrd _ _ (.inr (.inr ⟨j, rfl⟩)) (f j hj)
    low := by
      intro j hj; rw [hwr, hftlt j (by omega)]; exact h.low j hj
    ptr := by
      intro p k m hl hn; rw [hne _ (by simp)] at hl
      have := h.ptr p k m hl hn
      exact ⟨this.1, hres _ _ this.2⟩
    pcs := by
      intro u; rw [hpc, hview]
      by_cases e : u = t
      · subst e; rw [setf_self, setf_self]; exact hpw.mono (hvle.1 _)
      · rw [setf_ne _ _ e, setf_ne _ _ e]; exact h.others ho hres e
    ne := by rw [hcf]; exact h.ne
    last := by
      intro _
      rw [hcf, he, hd]
      apply h.last
      intro u x tp hu
      have e : u = t := h.inside ho hu (fun hq => hq.1)
      subst e; exact hnd x tp hu
    bornLt := by
      intro j k m hl; rw [hcf]
      rcases hnew j k m hl with ⟨rfl, rfl, rfl⟩ | h1
      · rw [hbornnew]; omega
      · rw [hbornold _ _ _ h1]; exact h.bornLt j k m h1
    bornMono := by
      intro j k k' m m' hl hl' hle
      rcases hnew j k' m' hl' with ⟨rfl, rfl, rfl⟩ | h1'
      · rw [hbornnew]
        rcases hnew j k m hl with ⟨_, rfl, rfl⟩ | h1
        · rw [hbornnew]; exact Nat.le_refl _
        · rw [hbornold _ _ _ h1]; have := h.bornLt j k m h1; omega
      · rcases hnew j k m hl with ⟨rfl, rfl, rfl⟩ | h1
        · have := h.smsg _ _ _ h1'; omega
        · rw [hbornold _ _ _ h1, hbornold _ _ _ h1']; exact h.bornMono j k k' m m' h1 h1' hle
    bornVal := by
      intro j k m hj hl hle
      rw [hcf, hg]
      rcases hnew j k m hl with ⟨rfl, rfl, rfl⟩ | h1
      · rw [hbornnew]; exact hval
      · rw [hbornold _ _ _ h1]
        have hj' : j < 3 + g.ct ∨ j = i := by
          rw [hct] at hj
          rcases hj with hj | ⟨u, n, tp, hu⟩
          · exact .inl hj
          · by_cases e : u = t
            · subst e; rw [hpc, setf_self] at hu; exact .inr (hnb _ _ _ hu)
            · rw [hpc, setf_ne _ _ e] at hu
              exact absurd (h.inside ho hu (fun hq => hq.2.1)) e
        rcases Nat.lt_or_ge j (3 + g.ct) with hlt' | hge
        · rw [hftlt j hlt'] at hle
          exact h.bornVal j k m (.inl hlt') h1 hle
        · exfalso
          rcases hj' with hj' | rfl
          · omega
          · rcases hft with ⟨h2, _⟩ | ⟨_, e⟩
            · omega
            · rw [e, setf_self] at hle
              have := h.smsg _ _ _ h1; omega
    finOk := by
      intro k v hk
      rw [hf] at hk
      obtain ⟨h1, h2⟩ := h.finOk k v hk
      refine ⟨by rw [hcf]; exact h1, fun j hj => ?_⟩
      rw [hct] at hj
      rw [hftlt j hj]
      obtain ⟨mf, hmf⟩ := h.ftMsg j hj
      rcases h2 j hj with h3 | ⟨a, m, h3, h4, h5⟩
      · left; rw [hbornold _ _ _ hmf]; exact h3
      · right; exact ⟨a, m, hold _ _ _ h3, h4, by rw [hbornold _ _ _ h3]; exact h5⟩ }

/-- The mutex is acquired. -/
theorem Rel.acquire {cat : Nat → Str} {w w' : St} {g : Ghost} (h : Rel cat w g) {t : Nat}
    (ho : w.mutex = none) {p : Pc}
    (hw' : w' = { w.goto t p
          { w.mem with view := setf w.mem.view t ((w.mem.view t).join w.mview) } with
        mutex := some t })
    (hinv : Inv (sc w' g)) (hnd : ∀ u tp, w.pc t ≠ .reg (.uDis u) tp)
    (hnb : ∀ n i tp, p ≠ .reg (.bump n i) tp)
    (hpw : PcW cat (sc w g) g w.born w.confs.length (w.mem.view t) p) : Rel cat w' g := by
  subst hw'
  have hfull : Full w.mem g w.mview := by
    have := h.full; unfold mutexView at this; rw [ho] at this; exact this
  have hno : ∀ u q tp, w.pc u = .reg q tp → (PcOk (sc w g) u q → (sc w g).mutex = some u) → False := by
    intro u q tp hu hq
    have h1 : w.mutex = some u := hq (h.holder hu)
    rw [ho] at h1; cases h1
  exact {
    inv := hinv
    vok := by
      intro u
      show VOk _ _ (setf w.mem.view t _ u)
      by_cases e : u = t
      · subst e; rw [setf_self]; exact (h.vok u).join h.mok
      · rw [setf_ne _ _ e]; exact h.vok u
    mok := h.mok
    hok := h.hok
    cmsg := h.cmsg
    smsg := h.smsg
    top := h.top
    ftMsg := h.ftMsg
    full := by
      show Full _ g (setf w.mem.view t _ t)
      rw [setf_self]
      exact hfull.mono (le_join_right _ _) rfl rfl rfl (fun _ _ => rfl)
    low := h.low
    ptr := h.ptr
    pcs := by
      intro u
      show PcW _ _ _ _ _ (setf w.mem.view t _ u) (setf w.pc t p u)
      by_cases e : u = t
      · subst e; rw [setf_self, setf_self]
        have := hpw.mono (v' := (w.mem.view u).join w.mview) (join_ts_left _ _ _)
        cases p <;> exact this
      · rw [setf_ne _ _ e, setf_ne _ _ e]
        have := h.pcs u
        revert this
        generalize w.pc u = q
        intro this
        cases q <;> exact this
    ne := h.ne
    last := by
      intro _
      apply h.last
      intro u x tp hu
      exact hno u _ _ hu (fun hq => hq.1)
    bornLt := h.bornLt
    bornMono := h.bornMono
    bornVal := by
      intro i ts m hi hl hft
      refine h.bornVal i ts m ?_ hl hft
      rcases hi with hi | ⟨u, n, tp, hu⟩
      · exact .inl hi
      · exfalso
        have hu : setf w.pc t p u = _ := hu
        by_cases e : u = t
        · subst e; rw [setf_self] at hu; exact hnb _ _ _ hu
        · rw [setf_ne _ _ e] at hu; exact hno u _ _ hu (fun hq => hq.2.1)
    finOk := h.finOk }

/-- The mutex is released. -/
theorem Rel.release {cat : Nat → Str} {w w' : St} {g : Ghost} (h : Rel cat w g) {t : Nat}
    (ho : w.mutex = some t) {p : Pc}
    (hmem : w'.mem = w.mem) (hg : w'.groups = w.groups) (he : w'.enabled = w.enabled)
    (hd : w'.disabled = w.disabled) (hm : w'.mutex = none) (hmv : w'.mview = w.mem.view t)
    (hpc : w'.pc = setf w.pc t p) (hcf : w'.confs = w.confs) (hb : w'.born = w.born)
    (hinv : Inv (sc w' g)) (hnd : ∀ u tp, w.pc t ≠ .reg (.uDis u) tp)
    (hp : ∀ q tp, p ≠ .reg q tp)
    (hf : ∀ k v, w'.fin k = some v → w.fin k = some v ∨ (v = w.mem.view t ∧
      k = w.confs.length - 1 ∧ ∀ j, j < 3 + g.ct → w.born j (g.st j) = w.confs.length - 1))
    (hpw : PcW cat (sc w g) g w.born w.confs.length (w.mem.view t) p) : Rel cat w' g := by
  have hfull := h.mview ho
  have hres : ∀ n j, ResOk (sc w g) n j → ResOk (sc w' g) n j := by
    intro n j hj; simpa only [ResOk, sc, hg] using hj
  exact {
    inv := hinv
    vok := by rw [hmem]; exact h.vok
    mok := by rw [hmem, hmv]; exact h.vok t
    hok := by rw [hmem]; exact h.hok
    cmsg := by rw [hmem]; exact h.cmsg
    smsg := by rw [hmem]; exact h.smsg
    top := by rw [hmem]; exact h.top
    ftMsg := by rw [hmem]; exact h.ftMsg
    full := by unfold mutexView; rw [hm, hmem]; dsimp only; rw [hmv]; exact hfull
    low := by rw [hmem]; exact h.low
    ptr := by
      rw [hmem]; intro p ts m hl hne
      have := h.ptr p ts m hl hne
      exact ⟨this.1, hres _ _ this.2⟩
    pcs := by
      intro u; rw [hpc, hmem, hb, hcf]
      by_cases e : u = t
      · subst e; rw [setf_self]
        cases p with
        | idle => trivial
        | look => trivial
        | storing => exact ⟨hpw.1, hres _ _ hpw.2⟩
        | testing => exact ⟨hpw.1, hres _ _ hpw.2⟩
        | reg q tp => exact absurd rfl (hp q tp)
      · rw [setf_ne _ _ e]; exact h.others ho hres e
    ne := by rw [hcf]; exact h.ne
    last := by
      intro _
      rw [hcf, he, hd]
      apply h.last
      intro u x tp hu
      have e : u = t := h.inside ho hu (fun hq => hq.1)
      subst e; exact hnd x tp hu
    bornLt := by rw [hmem, hb, hcf]; exact h.bornLt
    bornMono := by rw [hmem, hb]; exact h.bornMono
    bornVal := by
      rw [hmem, hb, hcf, hg]
      intro i ts m hi hl hft
      refine h.bornVal i ts m ?_ hl hft
      rcases hi with hi | ⟨u, n, tp, hu⟩
      · exact .inl hi
      · exfalso
        by_cases e : u = t
        · subst e; rw [hpc, setf_self] at hu; exact hp _ _ hu
        · rw [hpc, setf_ne _ _ e] at hu
          exact e (h.inside ho hu (fun hq => hq.2.1))
    finOk := by
      rw [hmem, hb, hcf]
      intro k v hk
      rcases hf k v hk with hk | ⟨rfl, rfl, hj⟩
      · exact h.finOk k v hk
      · refine ⟨by have := h.ne; omega, fun i hi => .inr ?_⟩
        obtain ⟨m, hm'⟩ := h.top i
        exact ⟨g.st i, m, hm', hfull.2.1 i, by rw [hj i hi]; exact Nat.le_refl _⟩ }

/-- The holder increments the count. -/
theorem Rel.bump {cat : Nat → Str} {w : St} {g : Ghost} (h : Rel cat w g) {t ts : Nat} {n : Str}
    {c : Nat} {tp : Option Nat} {m : Msg Loc Nat} (hp : w.pc t = .reg (.bump n c) tp)
    (hr : w.mem.readable t .count ts m) (hf : w.mem.hist .count (ts + 1) = none) :
    ∃ g', Rel cat (w.goto t (.reg (.unlockRet n c) tp)
      (w.mem.rmwRel t .count ts m (m.val + 1))) g' := by
  have hpk := h.holder hp
  have ho : w.mutex = some t := hpk.2.1
  have hc : c = 3 + g.ct := hpk.2.2.2.1
  have hfull := h.mview ho
  have hts : ts = g.ct := by
    have h1 := (h.cmsg _ _ hr.1).1
    have h2 := hr.2
    have h3 := hfull.1
    omega
  subst hts
  have hmv : m.val = 3 + g.ct := (h.cmsg _ _ hr.1).2.1
  have hpw := h.pcs t
  rw [hp] at hpw
  obtain ⟨hname, hfts, hborn⟩ := hpw
  let g' : Ghost := { g with ct := g.ct + 1 }
  refine ⟨g', ?_⟩
  have hvok : ∀ v, VOk w.mem.wr g v → VOk w.mem.wr g' v := by
    intro v hv; exact ⟨Nat.le_succ_of_le hv.1, hv.2⟩
  have hsee : ((w.mem.view t).see .count (g.ct + 1)).ts .count = g.ct + 1 := by
    have h1 := (h.vok t).1
    simp only [View.see, if_true]; omega
  have hnew : VOk w.mem.wr g' ((w.mem.view t).see .count (g.ct + 1)) := by
    refine ⟨by rw [hsee]; exact Nat.le_refl _, fun i hi => ?_⟩
    rw [hsee] at hi
    refine ⟨fun u => (hfull.2.2 u).2.2.1 i, ?_⟩
    by_cases e : i < 3 + (w.mem.view t).ts .count
    · exact Nat.le_trans ((h.vok t).2 i e).2 (see_ts _ _ _ _)
    · have e2 : i = c := by have := hfull.1; omega
      subst e2
      show g.ft i ≤ _
      rw [hfts]
      exact Nat.le_trans (hfull.2.1 i) (see_ts _ _ _ _)
  have hhist : ∀ l k, (w.mem.rmwRel t .count g.ct m (m.val + 1)).hist l k =
      if l = .count ∧ k = g.ct + 1 then
        some ⟨m.val + 1, ((w.mem.view t).see .count (g.ct + 1)).join m.view⟩
      else w.mem.hist l k := fun _ _ => rfl
  have hne : ∀ l, l ≠ .count → ∀ k,
      (w.mem.rmwRel t .count g.ct m (m.val + 1)).hist l k = w.mem.hist l k := by
    intro l hl k; rw [hhist, if_neg]; exact fun e => hl e.1
  have hview : (w.mem.rmwRel t .count g.ct m (m.val + 1)).view =
      setf w.mem.view t ((w.mem.view t).see .count (g.ct + 1)) := rfl
  have hwr : (w.mem.rmwRel t .count g.ct m (m.val + 1)).wr = w.mem.wr := rfl
  have hrd : (w.mem.rmwRel t .count g.ct m (m.val + 1)).rd = w.mem.rd := rfl
  generalize hμ : w.mem.rmwRel t .count g.ct m (m.val + 1) = μ at hhist hne hview hwr hrd ⊢
  have hres : ∀ n i, ResOk (sc w g) n i →
      ResOk (sc (w.goto t (.reg (.unlockRet n c) tp) μ) g') n i := by
    rintro n i (⟨h1, h2⟩ | ⟨_, h1, _⟩)
    · left; refine ⟨?_, h2⟩
      have h1 : i < 3 + g.ct := h1
      show i < 3 + (g.ct + 1); omega
    · have h1 : 3 + g.ct = 250 := h1
      have := hpk.2.2.2.2.1; omega
  have hinv := RegConc.inv_step h.inv (.bump (s := sc w g) (t := t) (n := n) (c := c)
    (by simp only [sc, hp, erase]))
  have hinv' : Inv (sc (w.goto t (.reg (.unlockRet n c) tp) μ) g') := by
    have e : sc (w.goto t (.reg (.unlockRet n c) tp) μ) g' =
        { (sc w g).goto t (.unlockRet n c) with count := (sc w g).count + 1 } :=
      sc_ext rfl rfl (by show 3 + (g.ct + 1) = 3 + g.ct + 1; omega) rfl rfl rfl
        (erase_setf _ _ _) rfl
    rw [e]; exact hinv
  exact {
    inv := hinv'
    vok := by
      intro u
      show VOk μ.wr g' (μ.view u)
      rw [hview, hwr]
      by_cases e : u = t
      · subst e; rw [setf_self]; exact hnew
      · rw [setf_ne _ _ e]; exact hvok _ (h.vok u)
    mok := by show VOk μ.wr _ _; rw [hwr]; exact hvok _ h.mok
    hok := by
      intro l k mk hl
      show VOk μ.wr _ _; rw [hwr]
      have hl : μ.hist l k = some mk := hl
      rw [hhist] at hl; split at hl
      · cases hl; exact hnew.join (hvok _ (h.hok _ _ _ hr.1))
      · exact hvok _ (h.hok l k mk hl)
    cmsg := by
      intro k mk hl
      have hl : μ.hist .count k = some mk := hl
      show k ≤ g.ct + 1 ∧ _
      rw [hhist] at hl; split at hl
      · next e =>
        cases hl; rw [e.2]
        refine ⟨Nat.le_refl _, by dsimp only; omega, ?_⟩
        exact Nat.le_trans (by rw [hsee]; exact Nat.le_refl _) (join_ts_left _ _ _)
      · have := h.cmsg k mk hl; exact ⟨by omega, this.2⟩
    smsg := by
      intro i k mk (hl : μ.hist _ k = some mk)
      rw [hne _ (by simp)] at hl; exact h.smsg i k mk hl
    top := by
      intro i
      show ∃ m, μ.hist _ _ = some m
      rw [hne _ (by simp)]; exact h.top i
    ftMsg := by
      intro i hi
      show ∃ m, μ.hist _ (g.ft i) = some m
      rw [hne _ (by simp)]
      by_cases e : i < 3 + g.ct
      · exact h.ftMsg i e
      · have hi : i < 3 + (g.ct + 1) := hi
        have e2 : i = c := by omega
        subst e2; rw [hfts]; exact h.top i
    full := by
      show Full μ g' (mutexView (w.goto t _ μ))
      unfold mutexView
      show Full μ g' (match w.mutex with | some t => μ.view t | none => w.mview)
      rw [ho]; dsimp only
      rw [hview, setf_self]
      refine ⟨by rw [hsee]; exact Nat.le_refl _,
        fun i => Nat.le_trans (hfull.2.1 i) (see_ts _ _ _ _), fun u => ?_⟩
      rw [hwr, hrd]
      obtain ⟨a, b, e, f⟩ := hfull.2.2 u
      exact ⟨a, b, e, fun i hi => f i (by have hi : 3 + (g.ct + 1) ≤ i := hi; omega)⟩
    low := by show ∀ i, i < 3 → (∀ u, μ.wr _ u = 0) ∧ _; rw [hwr]; exact h.low
    ptr := by
      intro p k mk (hl : μ.hist _ k = some mk) hn
      rw [hne _ (by simp)] at hl
      have := h.ptr p k mk hl hn
      exact ⟨this.1, hres _ _ this.2⟩
    pcs := by
      intro u
      show PcW _ _ _ _ _ (μ.view u) (setf w.pc t _ u)
      rw [hview]
      by_cases e : u = t
      · subst e; rw [setf_self, setf_self]
        exact ⟨hname, trivial⟩
      · rw [setf_ne _ _ e, setf_ne _ _ e]; exact h.others ho hres e
    ne := h.ne
    last := by
      intro _
      apply h.last
      intro u x tp' hu
      have e : u = t := h.inside ho hu (fun hq => hq.1)
      subst e; rw [hp] at hu; cases hu
    bornLt := by
      intro i k mk (hl : μ.hist _ k = some mk)
      rw [hne _ (by simp)] at hl; exact h.bornLt i k mk hl
    bornMono := by
      intro i k k' mk mk' (hl : μ.hist _ k = some mk) (hl' : μ.hist _ k' = some mk')
      rw [hne _ (by simp)] at hl hl'; exact h.bornMono i k k' mk mk' hl hl'
    bornVal := by
      intro i k mk hi (hl : μ.hist _ k = some mk) hft
      rw [hne _ (by simp)] at hl
      refine h.bornVal i k mk ?_ hl hft
      rcases hi with hi | ⟨u, n', tp', hu⟩
      · have hi : i < 3 + (g.ct + 1) := hi
        by_cases e : i < 3 + g.ct
        · exact .inl e
        · have e2 : i = c := by omega
          subst e2; exact .inr ⟨t, n, tp, hp⟩
      · exfalso
        have hu : setf w.pc t _ u = _ := hu
        by_cases e : u = t
        · subst e; rw [setf_self] at hu; cases hu
        · rw [setf_ne _ _ e] at hu
          exact e (h.inside ho hu (fun hq => hq.2.1))
    finOk := by
      intro k v hk
      obtain ⟨h1, h2⟩ := h.finOk k v hk
      refine ⟨h1, fun i hi => ?_⟩
      show _ ∨ ∃ ts m, μ.hist _ ts = some m ∧ _
      by_cases e : i < 3 + g.ct
      · rcases h2 i e with h3 | ⟨a, mk, h3, h4⟩
        · exact .inl h3
        · exact .inr ⟨a, mk, by rw [hne _ (by simp)]; exact h3, h4⟩
      · have hi : i < 3 + (g.ct + 1) := hi
        have e2 : i = c := by omega
        subst e2
        left
        show k ≤ w.born i (g.ft i)
        rw [hfts, hborn]
        show k ≤ w.confs.length - 1
        have h1 : k < w.confs.length := h1
        omega }

theorem le_reads (μ : Mem Loc Nat Plain) (t i : Nat) (u : Nat) : Le (μ.view u) ((reads μ t i).view u) := by
  unfold reads
  refine Le.trans ?_ (le_setf (le_tick _ _) u)
  refine Le.trans ?_ (le_setf (le_tick _ _) u)
  exact le_setf (le_tick _ _) u

theorem reads_view (μ : Mem Loc Nat Plain) (t i : Nat) : (reads μ t i).view =
    setf μ.view t ((((μ.view t).tick t).tick t).tick t) := by
  funext u
  unfold reads Mem.read
  dsimp only
  by_cases e : u = t
  · subst e; simp only [setf_self]
  · simp only [setf_ne _ _ e]

theorem reads_rd (μ : Mem Loc Nat Plain) (t i : Nat) (k : Plain) (u : Nat)
    (h : μ.rd k u ≤ (μ.view t).clk u) :
    (reads μ t i).rd k u ≤ ((((μ.view t).tick t).tick t).tick t).clk u := by
  have key : ∀ (ν : Mem Loc Nat Plain) (d : Plain), ν.rd k u ≤ (ν.view t).clk u →
      (ν.read t d).rd k u ≤ ((ν.read t d).view t).clk u := by
    intro ν d hν
    unfold Mem.read; dsimp only
    rw [setf_self]
    split
    · next e =>
      subst e
      by_cases eu : u = t
      · subst eu; rw [setf_self]; simp [View.tick]
      · rw [setf_ne _ _ eu]; exact Nat.le_trans hν (tick_clk _ _ _)
    · exact Nat.le_trans hν (tick_clk _ _ _)
  have h3 := key _ .dis (key _ .en (key _ (.group i) h))
  have h4 := congrFun (reads_view μ t i) t
  rw [setf_self] at h4
  rw [← h4]; exact h3

end Phosphor.RegConc.W
