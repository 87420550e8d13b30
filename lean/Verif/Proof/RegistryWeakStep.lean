import Verif.Proof.RegistryWeak
namespace Phosphor.RegConc.W
open Phosphor.Weak

/-- A quiet step that adds no message. -/
theorem Rel.local {cat : Nat → Str} {w w' : St} {g : Ghost} (h : Rel cat w g) (t : Nat)
    (hg : w'.groups = w.groups) (he : w'.enabled = w.enabled) (hd : w'.disabled = w.disabled)
    (hm : w'.mutex = w.mutex) (hmv : w'.mview = w.mview) (hcf : w'.confs = w.confs)
    (hb : w'.born = w.born) (hf : w'.fin = w.fin)
    (hh : w'.mem.hist = w.mem.hist) (hwr : w'.mem.wr = w.mem.wr)
    (hen : w'.mem.rd .en = w.mem.rd .en) (hdis : w'.mem.rd .dis = w.mem.rd .dis)
    (hrd : ∀ i, 3 + g.ct ≤ i → w'.mem.rd (.group i) = w.mem.rd (.group i))
    {v : View Loc} (hview : w'.mem.view = setf w.mem.view t v) (hle : Le (w.mem.view t) v)
    (hvok : VOk w.mem.wr g v) (hpc : w'.pc = setf w.pc t (w'.pc t))
    (hpok : PcOk (sc w g) t (erase (w'.pc t)))
    (hpw : PcW cat (sc w g) g w.born w.confs.length v (w'.pc t))
    (hnd : (∀ u tp, w'.pc t ≠ .reg (.uDis u) tp) → ∀ u tp, w.pc t ≠ .reg (.uDis u) tp)
    (hnb : ∀ n i tp, w'.pc t = .reg (.bump n i) tp → w.pc t = .reg (.bump n i) tp)
    (hr : ∀ q ∈ w'.results, q ∈ w.results ∨ ResOk (sc w g) q.1 q.2) : Rel cat w' g := by
  have hvt : w'.mem.view t = v := by rw [hview, setf_self]
  refine h.quiet t hg he hd hm hmv hcf hb hf (by rw [hh]) (fun _ => by rw [hh])
    (fun l ts m hl => .inl (by rw [hh] at hl; exact hl))
    (fun p ts m hl => .inl (by rw [hh] at hl; exact hl)) hwr hen hdis hrd
    (by rw [hview]; exact le_setf hle) (by rw [hvt]; exact hvok)
    (fun u hu => by rw [hview, setf_ne _ _ hu]) hpc hpok (by rw [hvt]; exact hpw) hnd hnb hr

theorem setf_view (μ : Nat → View Loc) (t : Nat) : μ = setf μ t (μ t) := by
  funext u
  by_cases e : u = t
  · subst e; rw [setf_self]
  · rw [setf_ne _ _ e]

theorem read_group_rd (μ : Mem Loc Nat Plain) (t i j : Nat) (h : i ≠ j) :
    (μ.read t (.group i)).rd (.group j) = μ.rd (.group j) := by
  unfold Mem.read; dsimp only; rw [if_neg]; intro e; cases e; exact h rfl

/-- A thread that knows of at least `i + 1` cells has looked up cell `i`. -/
theorem pcw_ret {cat : Nat → Str} {s : RegConc.St} {g : Ghost} {born : Nat → Nat → Nat} {len : Nat}
    {v : View Loc} {tp : Option Nat} {n : Str} {i : Nat} (hn : ∀ p, tp = some p → n = cat p)
    (hi : i < 3 + v.ts .count) (hr : ResOk s n i) : PcW cat s g born len v (ret tp i) := by
  cases tp with
  | none => trivial
  | some p => exact ⟨hi, by rw [← hn p rfl]; exact hr⟩

theorem ret_ne_reg (tp : Option Nat) (i : Nat) : ∀ q tp', ret tp i ≠ .reg q tp' := by
  intro q tp'; cases tp <;> simp [ret]

theorem inv_ext {a b : RegConc.St} (h : Inv a) (h1 : a.groups = b.groups)
    (h2 : a.statuses = b.statuses) (h3 : a.count = b.count) (h4 : a.enabled = b.enabled)
    (h5 : a.disabled = b.disabled) (h6 : a.mutex = b.mutex) (h8 : a.results = b.results)
    (h7 : a.pc = b.pc) : Inv b := sc_ext h1 h2 h3 h4 h5 h6 h7 h8 ▸ h

theorem see_le {v : View Loc} {l : Loc} {ts : Nat} (h : ts ≤ v.ts l) :
    (v.see l ts).ts l = v.ts l := by
  simp only [View.see, if_true]; omega

theorem rel_step {cat : Nat → Str} {w w' : St} {g : Ghost} (h : Rel cat w g)
    (hst : Step cat w w') : ∃ g', Rel cat w' g' := by
  cases hst with
  | @other t =>
    refine ⟨g, h.local t rfl rfl rfl rfl rfl rfl rfl rfl rfl rfl rfl rfl (fun _ _ => rfl) rfl
      (le_tick _ _) ((h.vok t).mono (le_tick _ _) rfl) (setf_same _ _) (h.inv.pcs t)
      ((h.pcs t).mono (Nat.le_refl _)) (fun hn => hn) (fun _ _ _ e => e) (fun q hq => .inl hq)⟩
  | @extLoad t n ts m hr =>
    have hle := (le_see (w.mem.view t) (.ext n) ts).trans (le_join_left _ m.view)
    refine ⟨g, h.local t rfl rfl rfl rfl rfl rfl rfl rfl rfl rfl rfl rfl (fun _ _ => rfl) rfl
      hle (h.vokLoad hr.1) (setf_same _ _) (h.inv.pcs t)
      ((h.pcs t).mono (hle.1 _)) (fun hn => hn) (fun _ _ _ e => e) (fun q hq => .inl hq)⟩
  | @extStore t n ts v hf =>
    have hvk : VOk w.mem.wr g ((w.mem.view t).see (.ext n) ts) :=
      (h.vok t).mono (le_see _ _ _) (see_count (by simp))
    have hhist : ∀ l k, (w.mem.storeRel t (.ext n) ts v).hist l k =
      if l = .ext n ∧ k = ts then some ⟨v, (w.mem.view t).see (.ext n) ts⟩
      else w.mem.hist l k := fun _ _ => rfl
    refine ⟨g, h.quiet t rfl rfl rfl rfl rfl rfl rfl rfl ?_ ?_ ?_ ?_ rfl rfl rfl (fun _ _ => rfl)
      (le_setf (le_see _ _ _)) ?_ (fun u hu => setf_ne _ _ hu) (setf_same _ _) (h.inv.pcs t) ?_
      (fun hn => hn) (fun _ _ _ e => e) (fun q hq => .inl hq)⟩
    · funext k; show (w.mem.storeRel t (.ext n) ts v).hist _ k = _; rw [hhist]; simp
    · intro j; funext k; show (w.mem.storeRel t (.ext n) ts v).hist _ k = _; rw [hhist]; simp
    · intro l k m (hl : (w.mem.storeRel t (.ext n) ts v).hist l k = _)
      rw [hhist] at hl; split at hl
      · cases hl; exact .inr hvk
      · exact .inl hl
    · intro p' k m (hl : (w.mem.storeRel t (.ext n) ts v).hist _ k = _)
      rw [hhist] at hl; simp at hl; exact .inl hl
    · show VOk _ _ (setf w.mem.view t _ t); rw [setf_self]; exact hvk
    · show PcW _ _ _ _ _ (setf w.mem.view t _ t) _
      rw [setf_self]
      exact (h.pcs t).mono ((le_see _ _ _).1 _)
  | @call t n ts m hp hn hr =>
    have hc := h.cmsg _ _ hr.1
    refine ⟨g, h.local t rfl rfl rfl rfl rfl rfl rfl rfl rfl rfl rfl rfl (fun _ _ => rfl) rfl
      ((le_see _ _ _).trans (le_join_left _ _)) (h.vokLoad hr.1) (by simp [St.goto]) ?_ ?_ ?_ ?_
      (fun q hq => .inl hq)⟩
    · simp only [St.goto, setf_self, erase]
      exact ⟨hn, Nat.zero_le _, by show m.val ≤ 3 + g.ct; omega⟩
    · simp only [St.goto, setf_self]
      refine ⟨fun p n h0 => (by cases h0), ?_⟩
      show m.val ≤ 3 + max _ _
      have := see_self (w.mem.view t) .count ts
      omega
    · intro _ u tp; rw [hp]; simp
    · intro n i tp; simp [St.goto]
  | @enter t p ts m hp hr hne =>
    have hc := h.ptr _ _ _ hr.1 hne
    refine ⟨g, h.local t rfl rfl rfl rfl rfl rfl rfl rfl rfl rfl rfl rfl (fun _ _ => rfl) rfl
      ((le_see _ _ _).trans (le_join_left _ _)) (h.vokLoad hr.1) (by simp [St.goto]) ?_ ?_ ?_ ?_
      (fun q hq => .inl hq)⟩
    · simp only [St.goto, setf_self, erase]; trivial
    · simp only [St.goto, setf_self]
      refine ⟨?_, hc.2⟩
      show m.val - 1 < 3 + max _ _
      omega
    · intro _ u tp; rw [hp]; simp
    · intro n i tp; simp [St.goto]
  | @enterFirst t p ts m hp hr h0 =>
    refine ⟨g, h.local t rfl rfl rfl rfl rfl rfl rfl rfl rfl rfl rfl rfl (fun _ _ => rfl) rfl
      ((le_see _ _ _).trans (le_join_left _ _)) (h.vokLoad hr.1) (by simp [St.goto]) ?_ ?_ ?_ ?_
      (fun q hq => .inl hq)⟩
    · simp only [St.goto, setf_self, erase]; trivial
    · simp only [St.goto, setf_self]; trivial
    · intro _ u tp; rw [hp]; simp
    · intro n i tp; simp [St.goto]
  | @look t p ts m hp hn hr =>
    have hc := h.cmsg _ _ hr.1
    refine ⟨g, h.local t rfl rfl rfl rfl rfl rfl rfl rfl rfl rfl rfl rfl (fun _ _ => rfl) rfl
      ((le_see _ _ _).trans (le_join_left _ _)) (h.vokLoad hr.1) (by simp [St.goto]) ?_ ?_ ?_ ?_
      (fun q hq => .inl hq)⟩
    · simp only [St.goto, setf_self, erase]
      exact ⟨hn, Nat.zero_le _, by show m.val ≤ 3 + g.ct; omega⟩
    · simp only [St.goto, setf_self]
      refine ⟨fun p' n' h0 h1 => by cases h0; cases h1; rfl, ?_⟩
      show m.val ≤ 3 + max _ _
      have := see_self (w.mem.view t) .count ts
      omega
    · intro _ u tp; rw [hp]; simp
    · intro n i tp; simp [St.goto]
  | @scan1End t n c i tp hp hi =>
    have hk := h.holder hp
    have hpw := h.pcs t; rw [hp] at hpw
    refine ⟨g, h.local t rfl rfl rfl rfl rfl rfl rfl rfl rfl rfl rfl rfl (fun _ _ => rfl)
      (setf_view _ t) (Le.refl _) (h.vok t) (by simp [St.goto]) ?_ ?_ ?_ ?_ (fun q hq => .inl hq)⟩
    · simp only [St.goto, setf_self, erase]; exact hk.1
    · simp only [St.goto, setf_self]; exact ⟨hpw.1, trivial⟩
    · intro _ u tp; rw [hp]; simp
    · intro n i tp; simp [St.goto]
  | @scan1Hit t n c i tp hp hi hgn =>
    have hk := h.holder hp
    have hpw := h.pcs t; rw [hp] at hpw
    have hci : i < 3 + g.ct := by have h1 : c ≤ 3 + g.ct := hk.2.2; omega
    refine ⟨g, h.local t rfl rfl rfl rfl rfl rfl rfl rfl rfl rfl rfl rfl
      (fun j hj => read_group_rd _ _ _ _ (by omega))
      rfl (le_tick _ _) ((h.vok t).mono (le_tick _ _) rfl) (by simp [St.goto]) ?_ ?_ ?_ ?_ ?_⟩
    · simp only [St.goto, setf_self, erase_ret]; trivial
    · simp only [St.goto, setf_self]
      refine pcw_ret (n := n) (fun p h0 => hpw.1 p n h0 rfl) ?_ (.inl ⟨hci, hgn⟩)
      have h2 : c ≤ 3 + (w.mem.view t).ts .count := hpw.2
      show i < 3 + (w.mem.view t).ts .count
      omega
    · intro _ u tp; rw [hp]; simp
    · intro n i tp e; simp only [St.goto, setf_self] at e; exact absurd e (ret_ne_reg _ _ _ _)
    · intro q hq
      rcases List.mem_cons.1 hq with rfl | hq
      · exact .inr (.inl ⟨hci, hgn⟩)
      · exact .inl hq
  | @scan1Miss t n c i tp hp hi hgn =>
    have hk := h.holder hp
    have hpw := h.pcs t; rw [hp] at hpw
    have hci : i < 3 + g.ct := by have h1 : c ≤ 3 + g.ct := hk.2.2; omega
    refine ⟨g, h.local t rfl rfl rfl rfl rfl rfl rfl rfl rfl rfl rfl rfl
      (fun j hj => read_group_rd _ _ _ _ (by omega))
      rfl (le_tick _ _) ((h.vok t).mono (le_tick _ _) rfl) (by simp [St.goto]) ?_ ?_ ?_ ?_
      (fun q hq => .inl hq)⟩
    · simp only [St.goto, setf_self, erase]; exact ⟨hk.1, hi, hk.2.2⟩
    · simp only [St.goto, setf_self]; exact ⟨fun p n' h0 h1 => hpw.1 p n' h0 h1, hpw.2⟩
    · intro _ u tp; rw [hp]; simp
    · intro n i tp; simp [St.goto]
  | @lock t n tp hp hm =>
    have hpw := h.pcs t; rw [hp] at hpw
    refine ⟨g, h.acquire hm rfl ?_ ?_ ?_ ?_⟩
    · have := RegConc.inv_step h.inv (.lock (s := sc w g) (t := t) (n := n)
        (by simp only [sc, hp, erase]) hm)
      refine inv_ext this rfl rfl rfl rfl rfl rfl rfl ?_
      show _ = fun u => erase (setf w.pc t _ u)
      rw [erase_setf]; rfl
    · intro u tp; rw [hp]; simp
    · intro n i tp; simp
    · exact ⟨hpw.1, trivial⟩
  | @load2 t n tp ts m hp hr =>
    have hk := h.holder hp
    have ho : w.mutex = some t := hk.2.1
    have hfull := h.mview ho
    have hpw := h.pcs t; rw [hp] at hpw
    have hc := h.cmsg _ _ hr.1
    have hrr := hr.2
    have hts : ts = g.ct := by have := hfull.1; omega
    have hsame : ((w.mem.view t).see .count ts).ts .count = (w.mem.view t).ts .count := see_le (by have := hfull.1; omega)
    refine ⟨g, h.local t rfl rfl rfl rfl rfl rfl rfl rfl rfl rfl rfl rfl (fun _ _ => rfl) rfl
      (le_see _ _ _) ((h.vok t).mono (le_see _ _ _) hsame) (by simp [St.goto]) ?_ ?_ ?_ ?_
      (fun q hq => .inl hq)⟩
    · simp only [St.goto, setf_self, erase]
      exact ⟨hk.1, hk.2.1, hk.2.2, by show m.val = 3 + g.ct; omega, Nat.zero_le _, by omega⟩
    · simp only [St.goto, setf_self]; exact ⟨hpw.1, trivial⟩
    · intro _ u tp; rw [hp]; simp
    · intro n i tp; simp [St.goto]
  | @scan2Hit t n c i tp hp hi hgn =>
    obtain ⟨h1, h2, h3, h4, h5, h6⟩ := h.holder hp
    have hpw := h.pcs t; rw [hp] at hpw
    have h4 : c = 3 + g.ct := h4
    refine ⟨g, h.local t rfl rfl rfl rfl rfl rfl rfl rfl rfl rfl rfl rfl
      (fun j hj => read_group_rd _ _ _ _ (by omega))
      rfl (le_tick _ _) ((h.vok t).mono (le_tick _ _) rfl) (by simp [St.goto]) ?_ ?_ ?_ ?_
      (fun q hq => .inl hq)⟩
    · simp only [St.goto, setf_self, erase]
      exact ⟨h2, h3, .inl ⟨by show i < 3 + g.ct; omega, hgn⟩⟩
    · simp only [St.goto, setf_self]; exact ⟨fun p n' h0 h1 => hpw.1 p n' h0 h1, trivial⟩
    · intro _ u tp; rw [hp]; simp
    · intro n i tp; simp [St.goto]
  | @scan2Miss t n c i tp hp hi hgn =>
    obtain ⟨h1, h2, h3, h4, h5, h6⟩ := h.holder hp
    have hpw := h.pcs t; rw [hp] at hpw
    have h4' : c = 3 + g.ct := h4
    refine ⟨g, h.local t rfl rfl rfl rfl rfl rfl rfl rfl rfl rfl rfl rfl
      (fun j hj => read_group_rd _ _ _ _ (by omega))
      rfl (le_tick _ _) ((h.vok t).mono (le_tick _ _) rfl) (by simp [St.goto]) ?_ ?_ ?_ ?_
      (fun q hq => .inl hq)⟩
    · simp only [St.goto, setf_self, erase]
      refine ⟨h1, h2, h3, h4, hi, ?_⟩
      intro j hj
      by_cases hji : j = i
      · subst hji; exact hgn
      · exact h6 j (by omega)
    · simp only [St.goto, setf_self]; exact ⟨fun p n' h0 h1 => hpw.1 p n' h0 h1, trivial⟩
    · intro _ u tp; rw [hp]; simp
    · intro n i tp; simp [St.goto]
  | @room t n c i tp hp hi hc =>
    obtain ⟨h1, h2, h3, h4, h5, h6⟩ := h.holder hp
    have hpw := h.pcs t; rw [hp] at hpw
    refine ⟨g, h.local t rfl rfl rfl rfl rfl rfl rfl rfl rfl rfl rfl rfl (fun _ _ => rfl)
      (setf_view _ t) (Le.refl _) (h.vok t) (by simp [St.goto]) ?_ ?_ ?_ ?_ (fun q hq => .inl hq)⟩
    · simp only [St.goto, setf_self, erase]
      exact ⟨h1, h2, h3, h4, hc, fun j hj => h6 j (by omega)⟩
    · simp only [St.goto, setf_self]; exact ⟨fun p n' h0 h1 => hpw.1 p n' h0 h1, trivial⟩
    · intro _ u tp; rw [hp]; simp
    · intro n i tp; simp [St.goto]
  | @full t n c i tp hp hi hc =>
    obtain ⟨h1, h2, h3, h4, h5, h6⟩ := h.holder hp
    have hpw := h.pcs t; rw [hp] at hpw
    have hhigh := h.inv.chigh
    simp only [registrySize] at hc
    refine ⟨g, h.local t rfl rfl rfl rfl rfl rfl rfl rfl rfl rfl rfl rfl (fun _ _ => rfl)
      (setf_view _ t) (Le.refl _) (h.vok t) (by simp [St.goto]) ?_ ?_ ?_ ?_ (fun q hq => .inl hq)⟩
    · simp only [St.goto, setf_self, erase]
      exact ⟨h2, h3, Or.inr ⟨rfl, by omega, fun j hj => h6 j (by omega)⟩⟩
    · simp only [St.goto, setf_self]; exact ⟨fun p n' h0 h1 => hpw.1 p n' h0 h1, trivial⟩
    · intro _ u tp; rw [hp]; simp
    · intro n i tp; simp [St.goto]
  | @writeGroup t n c tp hp =>
    have hk := h.holder hp
    have ho : w.mutex = some t := hk.2.1
    have hc : c = 3 + g.ct := hk.2.2.2.1
    have hc250 := hk.2.2.2.2.1
    have hpw := h.pcs t; rw [hp] at hpw
    have hsame : ∀ i, i < 3 + g.ct → setf w.groups c n i = w.groups i :=
      fun i hi => setf_ne _ _ (by omega)
    refine ⟨g, h.plainWrite ho (d := .group c) (.inr (.inr (by rw [hc]))) rfl ?_ rfl rfl rfl rfl rfl
      hsame ⟨[], (List.append_nil _).symm⟩ ?_ ?_ ?_ ?_ ?_⟩
    · have := RegConc.inv_step h.inv (.writeGroup (s := sc w g) (t := t) (n := n) (c := c)
        (by simp only [sc, hp, erase]))
      refine inv_ext this rfl rfl rfl rfl rfl rfl rfl ?_
      show _ = fun u => erase (setf w.pc t _ u)
      rw [erase_setf]; rfl
    · rintro n' i (⟨h1, h2⟩ | ⟨_, h1, _⟩)
      · exact .inl ⟨h1, by show setf w.groups c n i = n'; rw [hsame i h1]; exact h2⟩
      · have h1 : 3 + g.ct = 250 := h1
        omega
    · intro _
      exact h.last (fun u x tp' hu => by
        have e : u = t := h.inside ho hu (fun hq => hq.1)
        subst e; rw [hp] at hu; cases hu)
    · intro n i tp; simp
    · intro n i tp; rw [hp]; simp
    · exact ⟨hpw.1, trivial⟩
  | @writeStatus t n c tp ts hp hf =>
    have hk := h.holder hp
    have ho : w.mutex = some t := hk.2.1
    have hc : c = 3 + g.ct := hk.2.2.2.1
    have hpw := h.pcs t; rw [hp] at hpw
    have hview : (reads w.mem t c).view t = (((w.mem.view t).tick t).tick t).tick t := by
      rw [reads_view, setf_self]
    refine ⟨⟨g.ct, setf g.st c ts, setf g.ft c ts,
        upd g.σ c (calculateEnabled (w.groups c) w.enabled w.disabled)⟩,
      h.statusStore ho (i := c) (ts := ts) (mv := ((reads w.mem t c).view t).see (.status c) ts)
        hf (fun l k => rfl) ⟨?_, ?_⟩ rfl ⟨((reads w.mem t c).view t).see (.status c) ts, ?_, ?_, ?_, ?_, ?_⟩
        rfl rfl rfl rfl rfl rfl rfl rfl rfl rfl rfl (.inr ⟨hc, rfl⟩) ?_ ?_ ?_ ?_ ?_⟩
    · exact (h.vok t).mono ((le_reads w.mem t c t).trans (le_see _ _ _))
        (by rw [see_count (by simp), hview]; rfl)
    · intro _; rw [see_count (by simp), hview]; exact (h.vok t).1
    · show setf (reads w.mem t c).view t _ = _
      rw [reads_view]
      funext u
      by_cases e : u = t
      · subst e; simp only [setf_self]
      · simp only [setf_ne _ _ e]
    · exact (le_reads w.mem t c t).trans (le_see _ _ _)
    · rw [see_count (by simp), hview]; rfl
    · exact see_self _ _ _
    · intro k u _ hrd
      have := reads_rd w.mem t c k u hrd
      rw [hview]; exact this
    · have := RegConc.inv_step h.inv (.writeStatus (s := sc w g) (t := t) (n := n) (c := c)
        (by simp only [sc, hp, erase]))
      refine inv_ext this rfl rfl rfl rfl rfl rfl rfl ?_
      show _ = fun u => erase (setf w.pc t _ u)
      rw [erase_setf]; rfl
    · refine ⟨_, h.last (fun u x tp' hu => ?_), rfl⟩
      have e : u = t := h.inside ho hu (fun hq => hq.1)
      subst e; rw [hp] at hu; cases hu
    · intro u tp; rw [hp]; simp
    · intro n' j tp' e; cases e; rfl
    · refine ⟨hpw.1, ?_, ?_⟩
      · show setf g.ft c ts c = setf g.st c ts c
        rw [setf_self, setf_self]
      · show setf w.born c _ c (setf g.st c ts c) = _
        rw [setf_self, setf_self, setf_self]; rfl
  | @bump t n c tp ts m hp hr hf => exact h.bump hp hr hf
  | @ret t n r tp hp =>
    obtain ⟨h1, h2, h3⟩ := h.holder hp
    have ho : w.mutex = some t := h1
    have hfull := h.mview ho
    have hpw := h.pcs t; rw [hp] at hpw
    have hlow : 3 ≤ 3 + g.ct := h.inv.clow
    refine ⟨g, h.release ho rfl rfl rfl rfl rfl rfl rfl rfl rfl ?_ ?_ (ret_ne_reg _ _)
      (fun k v hk => .inl hk) ?_⟩
    · have := RegConc.inv_step h.inv (.ret (s := sc w g) (t := t) (n := n) (r := r)
        (by simp only [sc, hp, erase]))
      refine inv_ext this rfl rfl rfl rfl rfl rfl rfl ?_
      refine Eq.trans ?_ (erase_setf _ _ _).symm
      rw [erase_ret]; rfl
    · intro u tp; rw [hp]; simp
    · refine pcw_ret (n := n) (fun p h0 => hpw.1 p n h0 rfl) ?_ h3
      have := hfull.1
      rcases h3 with ⟨h4, _⟩ | ⟨h4, _⟩
      · have h4 : r < 3 + g.ct := h4
        omega
      · omega
  | @callUpd t u hp =>
    refine ⟨g, h.local t rfl rfl rfl rfl rfl rfl rfl rfl rfl rfl rfl rfl (fun _ _ => rfl)
      (setf_view _ t) (Le.refl _) (h.vok t) (by simp [St.goto]) ?_ ?_ ?_ ?_ (fun q hq => .inl hq)⟩
    · simp only [St.goto, setf_self, erase]; trivial
    · simp only [St.goto, setf_self]; exact ⟨fun p n h0 => (by cases h0), trivial⟩
    · intro _ u tp; rw [hp]; simp
    · intro n i tp; simp [St.goto]
  | @uLock t u tp hp hm =>
    have hpw := h.pcs t; rw [hp] at hpw
    refine ⟨g, h.acquire hm rfl ?_ ?_ ?_ ?_⟩
    · have := RegConc.inv_step h.inv (.uLock (s := sc w g) (t := t) (u := u)
        (by simp only [sc, hp, erase]) hm)
      refine inv_ext this rfl rfl rfl rfl rfl rfl rfl ?_
      show _ = fun u => erase (setf w.pc t _ u)
      rw [erase_setf]; rfl
    · intro u tp; rw [hp]; simp
    · intro n i tp; simp
    · exact ⟨hpw.1, trivial⟩
  | @uEn t u tp hp =>
    have ho : w.mutex = some t := h.holder hp
    have hpw := h.pcs t; rw [hp] at hpw
    refine ⟨g, h.plainWrite ho (d := .en) (.inl rfl) rfl ?_ rfl rfl rfl rfl rfl
      (fun _ _ => rfl) ⟨[], (List.append_nil _).symm⟩ (fun n i hi => hi) ?_ ?_ ?_ ?_⟩
    · have := RegConc.inv_step h.inv (.uEn (s := sc w g) (t := t) (u := u)
        (by simp only [sc, hp, erase]))
      refine inv_ext this rfl rfl rfl rfl rfl rfl rfl ?_
      show _ = fun u => erase (setf w.pc t _ u)
      rw [erase_setf]; rfl
    · intro hno; exact absurd rfl (hno u tp)
    · intro n i tp; simp
    · intro n i tp; rw [hp]; simp
    · exact ⟨hpw.1, trivial⟩
  | @uDis t u tp hp =>
    have hk := h.holder hp
    have ho : w.mutex = some t := hk.1
    have hen : w.enabled = u.en := hk.2
    have hpw := h.pcs t; rw [hp] at hpw
    refine ⟨g, h.plainWrite ho (d := .dis) (.inr (.inl rfl)) rfl ?_ rfl rfl rfl rfl rfl
      (fun _ _ => rfl) ⟨_, rfl⟩ (fun n i hi => hi) ?_ ?_ ?_ ?_⟩
    · have := RegConc.inv_step h.inv (.uDis (s := sc w g) (t := t) (u := u)
        (by simp only [sc, hp, erase]))
      refine inv_ext this rfl rfl rfl rfl rfl rfl rfl ?_
      show _ = fun u => erase (setf w.pc t _ u)
      rw [erase_setf]; rfl
    · intro _
      show (w.confs ++ [(u.en, u.dis)])[(w.confs ++ [(u.en, u.dis)]).length - 1]? =
        some (w.enabled, u.dis)
      rw [hen]; simp
    · intro n i tp; simp
    · intro n i tp; rw [hp]; simp
    · exact ⟨hpw.1, trivial⟩
  | @uLoad t u tp ts m hp hr =>
    have hk := h.holder hp
    have ho : w.mutex = some t := hk.1
    have hfull := h.mview ho
    have hpw := h.pcs t; rw [hp] at hpw
    have hc := h.cmsg _ _ hr.1
    have hrr := hr.2
    have hts : ts = g.ct := by have := hfull.1; omega
    have hsame : ((w.mem.view t).see .count ts).ts .count = (w.mem.view t).ts .count := see_le (by have := hfull.1; omega)
    refine ⟨g, h.local t rfl rfl rfl rfl rfl rfl rfl rfl rfl rfl rfl rfl (fun _ _ => rfl) rfl
      (le_see _ _ _) ((h.vok t).mono (le_see _ _ _) hsame) (by simp [St.goto]) ?_ ?_ ?_ ?_
      (fun q hq => .inl hq)⟩
    · simp only [St.goto, setf_self, erase]
      exact ⟨hk.1, hk.2.1, hk.2.2, by show m.val = 3 + g.ct; omega, Nat.zero_le _, by omega⟩
    · simp only [St.goto, setf_self]; exact ⟨hpw.1, fun j hj => by omega⟩
    · intro _ u tp; rw [hp]; simp
    · intro n i tp; simp [St.goto]
  | @uStore t e d c i tp ts hp hi hf =>
    have hk := h.holder hp
    have ho : w.mutex = some t := hk.1
    have hc : c = 3 + g.ct := hk.2.2.2.1
    have hpw := h.pcs t; rw [hp] at hpw
    have hview : (reads w.mem t i).view t = (((w.mem.view t).tick t).tick t).tick t := by
      rw [reads_view, setf_self]
    have hlow := h.low
    refine ⟨⟨g.ct, setf g.st i ts, g.ft,
        upd g.σ i (calculateEnabled (w.groups i) w.enabled w.disabled)⟩,
      h.statusStore ho (i := i) (ts := ts) (mv := View.bot)
        hf (fun l k => rfl) ⟨?_, ?_⟩ rfl ⟨((reads w.mem t i).view t).see (.status i) ts, ?_, ?_, ?_, ?_, ?_⟩
        rfl rfl rfl rfl rfl rfl rfl rfl rfl rfl rfl (.inl ⟨by omega, rfl⟩) ?_ ?_ ?_ ?_ ?_⟩
    · refine ⟨Nat.zero_le _, fun j hj => ?_⟩
      have hj : j < 3 := hj
      exact ⟨fun u => by rw [(hlow j hj).1 u]; exact Nat.zero_le _,
        by rw [(hlow j hj).2]; exact Nat.zero_le _⟩
    · intro _; exact Nat.zero_le _
    · show setf (reads w.mem t i).view t _ = _
      rw [reads_view]
      funext u
      by_cases e : u = t
      · subst e; simp only [setf_self]
      · simp only [setf_ne _ _ e]
    · exact (le_reads w.mem t i t).trans (le_see _ _ _)
    · rw [see_count (by simp), hview]; rfl
    · exact see_self _ _ _
    · intro k u _ hrd
      have := reads_rd w.mem t i k u hrd
      rw [hview]; exact this
    · have := RegConc.inv_step h.inv (.uStore (s := sc w g) (t := t) (e := e) (d := d) (c := c)
        (i := i) (by simp only [sc, hp, erase]) hi)
      refine inv_ext this rfl rfl rfl rfl rfl rfl rfl ?_
      show _ = fun u => erase (setf w.pc t _ u)
      rw [erase_setf]; rfl
    · refine ⟨_, h.last (fun u x tp' hu => ?_), rfl⟩
      have e : u = t := h.inside ho hu (fun hq => hq.1)
      subst e; rw [hp] at hu; cases hu
    · intro u tp; rw [hp]; simp
    · intro n' j tp' e; cases e
    · refine ⟨hpw.1, fun j hj => ?_⟩
      show setf w.born i _ j (setf g.st i ts j) = _
      by_cases e : j = i
      · subst e; rw [setf_self, setf_self, setf_self]; rfl
      · rw [setf_ne _ _ e, setf_ne _ _ e]; exact hpw.2 j (by omega)
  | @uClear t c i tp ts hp hi hf =>
    have hk := h.holder hp
    have ho : w.mutex = some t := hk.1
    have hc : c = 3 + g.ct := hk.2.2.2.1
    have hen : w.enabled = [[]] := hk.2.1
    have hdi : w.disabled = [[]] := hk.2.2.1
    have hpw := h.pcs t; rw [hp] at hpw
    have hlow := h.low
    refine ⟨⟨g.ct, setf g.st i ts, g.ft, upd g.σ i false⟩,
      h.statusStore ho (i := i) (ts := ts) (mv := View.bot)
        hf (fun l k => rfl) ⟨?_, ?_⟩ rfl ⟨(w.mem.view t).see (.status i) ts, rfl, le_see _ _ _,
          see_count (by simp), see_self _ _ _, fun k u _ hrd => hrd⟩
        rfl rfl rfl rfl rfl rfl rfl rfl rfl rfl rfl (.inl ⟨by omega, rfl⟩) ?_ ?_ ?_ ?_ ?_⟩
    · refine ⟨Nat.zero_le _, fun j hj => ?_⟩
      have hj : j < 3 := hj
      exact ⟨fun u => by rw [(hlow j hj).1 u]; exact Nat.zero_le _,
        by rw [(hlow j hj).2]; exact Nat.zero_le _⟩
    · intro _; exact Nat.zero_le _
    · have := RegConc.inv_step h.inv (.uClear (s := sc w g) (t := t) (c := c)
        (i := i) (by simp only [sc, hp, erase]) hi)
      refine inv_ext this rfl rfl rfl rfl rfl rfl rfl ?_
      show _ = fun u => erase (setf w.pc t _ u)
      rw [erase_setf]; rfl
    · refine ⟨_, h.last (fun u x tp' hu => ?_), ?_⟩
      · have e : u = t := h.inside ho hu (fun hq => hq.1)
        subst e; rw [hp] at hu; cases hu
      · dsimp only; rw [hen, hdi, calculateEnabled_disabled]; rfl
    · intro u tp; rw [hp]; simp
    · intro n' j tp' e; cases e
    · refine ⟨hpw.1, fun j hj => ?_⟩
      show setf w.born i _ j (setf g.st i ts j) = _
      by_cases e : j = i
      · subst e; rw [setf_self, setf_self, setf_self]; rfl
      · rw [setf_ne _ _ e, setf_ne _ _ e]; exact hpw.2 j (by omega)
  | @uRet t u c i tp hp hi =>
    obtain ⟨h1, h2, h3, h4, h5, h6⟩ := h.holder hp
    have ho : w.mutex = some t := h1
    have hpw := h.pcs t; rw [hp] at hpw
    have h4 : c = 3 + g.ct := h4
    refine ⟨g, h.release ho (p := .idle) rfl rfl rfl rfl rfl rfl rfl rfl rfl ?_ ?_ (by simp) ?_ trivial⟩
    · have := RegConc.inv_step h.inv (.uRet (s := sc w g) (t := t) (u := u) (c := c) (i := i)
        (by simp only [sc, hp, erase]) hi)
      refine inv_ext this rfl rfl rfl rfl rfl rfl rfl ?_
      show _ = fun u => erase (setf w.pc t _ u)
      rw [erase_setf]; rfl
    · intro u tp; rw [hp]; simp
    · intro k v hk
      have hk : setf w.fin (w.confs.length - 1) (some (w.mem.view t)) k = some v := hk
      by_cases e : k = w.confs.length - 1
      · subst e; rw [setf_self] at hk; cases hk
        exact .inr ⟨rfl, rfl, fun j hj => hpw.2 j (by omega)⟩
      · rw [setf_ne _ _ e] at hk; exact .inl hk
  | @store t p i ts hp hf =>
    have hpw := h.pcs t; rw [hp] at hpw
    have hvk : VOk w.mem.wr g ((w.mem.view t).see (.ptr p) ts) :=
      (h.vok t).mono (le_see _ _ _) (see_count (by simp))
    have hhist : ∀ l k, (w.mem.storeRel t (.ptr p) ts (i + 1)).hist l k =
      if l = .ptr p ∧ k = ts then some ⟨i + 1, (w.mem.view t).see (.ptr p) ts⟩
      else w.mem.hist l k := fun _ _ => rfl
    refine ⟨g, h.quiet t rfl rfl rfl rfl rfl rfl rfl rfl ?_ ?_ ?_ ?_ rfl rfl rfl (fun _ _ => rfl)
      (le_setf (le_see _ _ _)) ?_ (fun u hu => setf_ne _ _ hu) (by simp [St.goto]) ?_ ?_ ?_ ?_
      (fun q hq => .inl hq)⟩
    · funext k; show (w.mem.storeRel t (.ptr p) ts (i + 1)).hist _ k = _; rw [hhist]; simp
    · intro j; funext k; show (w.mem.storeRel t (.ptr p) ts (i + 1)).hist _ k = _; rw [hhist]; simp
    · intro l k m (hl : (w.mem.storeRel t (.ptr p) ts (i + 1)).hist l k = _)
      rw [hhist] at hl; split at hl
      · cases hl; exact .inr hvk
      · exact .inl hl
    · intro p' k m (hl : (w.mem.storeRel t (.ptr p) ts (i + 1)).hist _ k = _)
      rw [hhist] at hl; split at hl
      · next e =>
        cases hl; cases e.1
        right
        show i + 1 - 1 < 3 + ((w.mem.view t).see (.ptr p) ts).ts .count ∧ _
        rw [see_count (by simp)]
        exact hpw
      · exact .inl hl
    · show VOk _ _ (setf w.mem.view t _ t); rw [setf_self]; exact hvk
    · simp only [St.goto, setf_self, erase]; trivial
    · show PcW _ _ _ _ _ (setf w.mem.view t _ t) (setf w.pc t _ t)
      rw [setf_self, setf_self]
      exact ⟨by rw [see_count (by simp)]; exact hpw.1, hpw.2⟩
    · intro _ u tp; rw [hp]; simp
    · intro n i tp; simp [St.goto]
  | @test t p i ts m hp hr =>
    refine ⟨g, h.local t rfl rfl rfl rfl rfl rfl rfl rfl rfl rfl rfl rfl (fun _ _ => rfl) rfl
      ((le_see _ _ _).trans (le_join_left _ _)) (h.vokLoad hr.1) (by simp [St.goto]) ?_ ?_ ?_ ?_
      (fun q hq => .inl hq)⟩
    · simp only [St.goto, setf_self, erase]; trivial
    · simp only [St.goto, setf_self]; trivial
    · intro _ u tp; rw [hp]; simp
    · intro n i tp; simp [St.goto]

theorem rel_reachable {cat : Nat → Str} {w : St} (h : Reachable cat w) : ∃ g, Rel cat w g := by
  induction h with
  | init => exact ⟨_, rel_init cat⟩
  | step _ hst ih => exact ih.elim fun g hg => rel_step hg hst

/-- Nobody forgets. -/
theorem view_step {cat : Nat → Str} {w w' : St} (h : Step cat w w') (u : Nat) :
    Le (w.mem.view u) (w'.mem.view u) := by
  cases h with
  | other => exact le_setf (le_tick _ _) u
  | extLoad => exact le_setf ((le_see _ _ _).trans (le_join_left _ _)) u
  | extStore => exact le_setf (le_see _ _ _) u
  | call => exact le_setf ((le_see _ _ _).trans (le_join_left _ _)) u
  | enter => exact le_setf ((le_see _ _ _).trans (le_join_left _ _)) u
  | enterFirst => exact le_setf ((le_see _ _ _).trans (le_join_left _ _)) u
  | look => exact le_setf ((le_see _ _ _).trans (le_join_left _ _)) u
  | scan1End => exact Le.refl _
  | scan1Hit => exact le_setf (le_tick _ _) u
  | scan1Miss => exact le_setf (le_tick _ _) u
  | lock => exact le_setf (le_join_left _ _) u
  | load2 => exact le_setf (le_see _ _ _) u
  | scan2Hit => exact le_setf (le_tick _ _) u
  | scan2Miss => exact le_setf (le_tick _ _) u
  | room => exact Le.refl _
  | full => exact Le.refl _
  | writeGroup => exact le_setf (le_tick _ _) u
  | @writeStatus t _ c => exact (le_reads w.mem t c u).trans (le_setf (le_see _ _ _) u)
  | bump => exact le_setf (le_see _ _ _) u
  | ret => exact Le.refl _
  | callUpd => exact Le.refl _
  | uLock => exact le_setf (le_join_left _ _) u
  | uEn => exact le_setf (le_tick _ _) u
  | uDis => exact le_setf (le_tick _ _) u
  | uLoad => exact le_setf (le_see _ _ _) u
  | @uStore t _ _ _ i => exact (le_reads w.mem t i u).trans (le_setf (le_see _ _ _) u)
  | uClear => exact le_setf (le_see _ _ _) u
  | uRet => exact Le.refl _
  | store => exact le_setf (le_see _ _ _) u
  | test => exact le_setf ((le_see _ _ _).trans (le_join_left _ _)) u

theorem hist_add {μ : Mem Loc Nat Plain} {l k : Loc} {ts i : Nat} {m m' : Msg Loc Nat}
    (hf : μ.hist l ts = none) (h : μ.hist k i = some m) : (μ.add l ts m').hist k i = some m := by
  show (if k = l ∧ i = ts then some m' else μ.hist k i) = some m
  rw [if_neg]
  · exact h
  · rintro ⟨rfl, rfl⟩; rw [hf] at h; cases h

/-- Messages stay. -/
theorem hist_step {cat : Nat → Str} {w w' : St} (h : Step cat w w') {l : Loc} {ts : Nat}
    {m : Msg Loc Nat} (hm : w.mem.hist l ts = some m) : w'.mem.hist l ts = some m := by
  cases h with
  | extStore hf => exact hist_add hf.1 hm
  | writeStatus _ hf => exact hist_add hf.1 hm
  | bump _ _ hf => exact hist_add hf hm
  | uStore _ _ hf => exact hist_add hf.1 hm
  | uClear _ _ hf => exact hist_add hf.1 hm
  | store _ hf => exact hist_add hf.1 hm
  | _ => exact hm

end Phosphor.RegConc.W
