import Verif.Model.Memory
import Verif.Props.Buffer
import Mathlib.Tactic.ByContra
/-
Lemmas about the memory of the log: what the factories ask for, and an invariant of the calls.
-/
namespace Phosphor.Mem

/-- Bytes a buffer for `size` bytes takes at most: object, chunks and two cells per chunk. -/
def cost (size : Nat) : Nat := 344 + 4040 * (size / 4008)

theorem cost_mono {a b : Nat} (h : a ≤ b) : cost a ≤ cost b := by
  have := Nat.div_le_div_right (c := 4008) h
  unfold cost; omega

theorem chunkSize_eq : tChunk.size = 4008 := by decide

theorem block_eq (t n : BitVec 64) (ht : 1 ≤ t.toNat) (hb : t.toNat * n.toNat + t.toNat < 2 ^ 64) :
    dynAllocate t n = .ok (t * n) ∧ (t * n).toNat = t.toNat * n.toNat := by
  have h := C53_allocate t n ht
  have hne : ¬ (2 ^ 64 - 1) / t.toNat ≤ n.toNat := by
    have : n.toNat < (2 ^ 64 - 1) / t.toNat := by
      rw [Nat.lt_iff_add_one_le, Nat.le_div_iff_mul_le ht, Nat.add_mul, Nat.mul_comm n.toNat]; omega
    omega
  have hok : dynAllocate t n = .ok (t * n) := by
    unfold dynAllocate
    by_cases hc : BitVec.allOnes 64 / t ≤ n
    · exact absurd (h.2.1 (by unfold dynAllocate; rw [if_pos hc])) hne
    · rw [if_neg hc]
  exact ⟨hok, (h.1 _ hok).1⟩

theorem cells_le (n : BitVec 64) (h1 : 1 ≤ n.toNat) (h2 : n.toNat ≤ 2 ^ 32) :
    (upperPowerOfTwo n).toNat ≤ 2 * n.toNat := by
  obtain ⟨⟨k, hk⟩, _, _, hmin⟩ := C20_upper_power_of_two_partial n h1 h2
  by_contra hc
  have hk0 : k ≠ 0 := by rintro rfl; simp at hk; omega
  obtain ⟨j, rfl⟩ := Nat.exists_eq_succ_of_ne_zero hk0
  have hj : 2 ^ (j + 1) = 2 * 2 ^ j := by rw [Nat.pow_succ]; omega
  have h3 := hmin j (by omega) (by omega)
  omega

theorem size_div (size : BitVec 64) :
    (size / BitVec.ofNat 64 tChunk.size).toNat = size.toNat / 4008 := by
  rw [BitVec.toNat_udiv, chunkSize_eq]; rfl

theorem requests_spec (mode : Mode) (n : BitVec 64) (h1 : 1 ≤ n.toNat) (h2 : n.toNat ≤ 2 ^ 32) :
    ∃ l : List Nat, requests mode n = l.map some ∧ l ≠ [] ∧ l.sum ≤ 344 + 4040 * n.toNat ∧
      4008 * n.toNat ≤ l.sum := by
  have hc : (BitVec.ofNat 64 tChunk.size).toNat = 4008 := by decide
  have hq : (BitVec.ofNat 64 tCell.size).toNat = 16 := by decide
  have hle := cells_le n h1 h2
  obtain ⟨e1, e2⟩ := block_eq (BitVec.ofNat 64 tChunk.size) n (by omega) (by rw [hc]; omega)
  obtain ⟨e3, e4⟩ := block_eq (BitVec.ofNat 64 tCell.size) (upperPowerOfTwo n) (by omega) (by rw [hq]; omega)
  have hf : tFixed.size = 48 := by decide
  have hr : tRing.size = 344 := by decide
  rw [hc] at e2
  rw [hq] at e4
  cases mode with
  | fixed =>
    refine ⟨[48, 4008 * n.toNat], ?_, by simp, ?_, ?_⟩
    · simp only [requests, e1, e2, hf, List.map]
    · simp only [List.sum_cons, List.sum_nil]; omega
    · simp only [List.sum_cons, List.sum_nil]; omega
  | ring =>
    refine ⟨[344, 4008 * n.toNat, 16 * (upperPowerOfTwo n).toNat], ?_, by simp, ?_, ?_⟩
    · simp only [requests, e1, e2, e3, e4, hr, List.map]
    · simp only [List.sum_cons, List.sum_nil]; omega
    · simp only [List.sum_cons, List.sum_nil]; omega

@[simp] theorem lastOf_nil (s : St) : lastOf s [] = s := rfl

@[simp] theorem lastOf_cons (s x : St) (ms : List St) : lastOf s (x :: ms) = lastOf x ms := by
  unfold lastOf
  cases ms with
  | nil => rfl
  | cons y ys =>
    rw [List.getLast?_cons_cons]
    cases h : (y :: ys).getLast? with
    | none => simp at h
    | some z => rfl

theorem lastOf_append (s : St) (a b : List St) : lastOf s (a ++ b) = lastOf (lastOf s a) b := by
  induction a generalizing s with
  | nil => rfl
  | cons x xs ih => simp only [List.cons_append, lastOf_cons, ih]

theorem build_spec (memory : Nat → Bool) (l : List Nat) (s : St) :
    (∀ m ∈ (s.build memory (l.map some)).1, ∃ g, m = { s with fresh := g } ∧
      g.sum ≤ s.fresh.sum + l.sum) ∧
    ((s.build memory (l.map some)).2 = true →
      lastOf s (s.build memory (l.map some)).1 = { s with fresh := s.fresh ++ l }) ∧
    ((s.build memory (l.map some)).2 = false →
      lastOf s (s.build memory (l.map some)).1 = { s with fresh := [] }) := by
  induction l generalizing s with
  | nil => refine ⟨by simp [St.build], ?_, ?_⟩ <;> simp [St.build]
  | cons b l ih =>
    simp only [List.map, St.build]
    by_cases hb : memory b = true
    · simp only [hb, if_true]
      obtain ⟨h1, h2, h3⟩ := ih { s with fresh := s.fresh ++ [b] }
      refine ⟨?_, ?_, ?_⟩
      · intro m hm
        rcases List.mem_cons.1 hm with rfl | hm
        · exact ⟨_, rfl, by simp [List.sum_append]⟩
        · obtain ⟨g, hg, hs⟩ := h1 m hm
          refine ⟨g, hg, ?_⟩
          simp [List.sum_append] at hs ⊢; omega
      · intro ho
        rw [lastOf_cons, h2 ho]
        simp
      · intro ho
        rw [lastOf_cons, h3 ho]
    · simp only [hb]
      refine ⟨?_, by simp, by simp⟩
      intro m hm
      simp at hm
      exact ⟨[], hm, by simp⟩

/-- Bytes of the buffer of the log. -/
abbrev St.held (s : St) : Nat := (s.buffer.getD []).sum

/-- Between calls: nothing is under construction, the buffer is at most one for `M` bytes, and
while tracing is enabled at most one for the budget of the run. -/
structure Ok (M : Nat) (s : St) : Prop where
  fresh : s.fresh = []
  held : s.held ≤ cost M
  on : s.enabled = true → 2 ^ 20 ≤ s.budget ∧ s.held ≤ cost s.budget

/-- At any moment. -/
structure Mid (M : Nat) (s : St) : Prop where
  on : s.enabled = true → s.fresh = [] ∧ 2 ^ 20 ≤ s.budget ∧ s.held ≤ cost s.budget
  held : s.held + s.fresh.sum ≤ 2 * cost M

theorem Ok.mid {M : Nat} {s : St} (h : Ok M s) : Mid M s :=
  ⟨fun he => ⟨h.fresh, h.on he⟩, by rw [h.fresh]; have := h.held; simp only [List.sum_nil]; omega⟩

theorem Ok.new (M : Nat) : Ok M St.new :=
  ⟨rfl, by simp [St.new, St.held], by simp [St.new]⟩

theorem stop_spec {M : Nat} {s : St} (h : Ok M s) :
    (∀ m ∈ s.stop, Ok M m ∧ m.held ≤ s.held) ∧ Ok M (lastOf s s.stop) ∧
      (lastOf s s.stop).enabled = false ∧
      (s.enabled = true → s.conf.takes = true → (lastOf s s.stop).buffer = none) ∧
      ((s.enabled = false ∨ s.conf.takes = false) →
        (lastOf s s.stop).buffer = s.buffer) := by
  have hfr := h.fresh
  have hh := h.held
  by_cases he : s.enabled = true
  · by_cases ht : s.conf.takes = true
    · simp only [St.stop, he, ht, if_true, lastOf_cons, lastOf_nil]
      refine ⟨?_, ⟨hfr, by simp [St.held], by simp⟩, trivial, by simp, by simp⟩
      intro m hm
      simp only [List.mem_cons, List.not_mem_nil, or_false] at hm
      rcases hm with rfl | rfl
      · exact ⟨⟨hfr, hh, by simp⟩, Nat.le_refl _⟩
      · exact ⟨⟨hfr, by simp [St.held], by simp⟩, by simp [St.held]⟩
    · simp only [St.stop, he, ht, if_true, lastOf_cons, lastOf_nil, Bool.false_eq_true, if_false]
      refine ⟨?_, ⟨hfr, hh, by simp⟩, trivial, by simp, by simp⟩
      intro m hm
      simp only [List.mem_cons, List.not_mem_nil, or_false] at hm
      rcases hm with rfl | rfl
      · exact ⟨⟨hfr, hh, by simp⟩, Nat.le_refl _⟩
      · exact ⟨⟨hfr, hh, by simp⟩, Nat.le_refl _⟩
  · simp only [St.stop, he]
    exact ⟨by simpa using h, by simpa using h, by simpa using he, by simp, by simp⟩

/-- The sizes of the claim: at least one megabyte; up to 8 terabytes. -/
abbrev Supported (size : Nat) : Prop := 2 ^ 20 ≤ size ∧ size ≤ 2 ^ 43

/-- `start` with a supported size. -/
theorem start_spec {M : Nat} {s : St} (h : Ok M s) (memory : Nat → Bool) (conf : Conf)
    (hs : Supported conf.size.toNat) (hM : conf.size.toNat ≤ M) :
    (∀ m ∈ s.start memory conf, Mid M m ∧
      (s.buffer = none ∨ s.enabled = true ∧ conf.takes = true →
        m.held + m.fresh.sum ≤ cost M)) ∧
    Ok M (lastOf s (s.start memory conf)) := by
  have hn : (conf.size / BitVec.ofNat 64 tChunk.size).toNat = conf.size.toNat / 4008 := size_div _
  have hn1 : 1 ≤ conf.size.toNat / 4008 := by omega
  have hn2 : conf.size.toNat / 4008 ≤ 2 ^ 32 := by omega
  have hne : ¬ conf.size / BitVec.ofNat 64 tChunk.size = 0 := by
    intro h0; rw [h0] at hn; simp at hn; omega
  obtain ⟨l, hl, _, hle, _⟩ := requests_spec conf.mode _ (hn ▸ hn1) (hn ▸ hn2)
  rw [hn] at hle
  have hcost : l.sum ≤ cost conf.size.toNat := hle
  have hcM := cost_mono hM
  have h0 : Ok M { s with conf } := ⟨h.fresh, h.held, h.on⟩
  -- the part after `stop`
  have key : ∀ s1 : St, Ok M s1 → s1.enabled = false →
      (∀ m ∈ (s1.build memory (l.map some)).1, Mid M m ∧ (s1.buffer = none → m.held + m.fresh.sum ≤ cost M)) ∧
      ((s1.build memory (l.map some)).2 = false → Ok M (lastOf s1 (s1.build memory (l.map some)).1)) := by
    intro s1 h1 he
    obtain ⟨b1, b2, b3⟩ := build_spec memory l s1
    refine ⟨?_, ?_⟩
    · intro m hm
      obtain ⟨g, rfl, hg⟩ := b1 m hm
      have := h1.held
      rw [h1.fresh] at hg
      simp only [List.sum_nil] at hg
      refine ⟨⟨by simp [he], ?_⟩, ?_⟩
      · show s1.held + g.sum ≤ _; omega
      · intro hb
        show (s1.buffer.getD []).sum + g.sum ≤ _
        rw [hb]; simp only [Option.getD_none, List.sum_nil]; omega
    · intro ho
      rw [b3 ho]
      exact ⟨rfl, h1.held, by simp [he]⟩
  -- the stopping part
  have hstop : ∃ stopping : List St,
      (if ({ s with conf } : St).enabled then ({ s with conf } : St).stop else []) = stopping ∧
      (∀ m ∈ stopping, Ok M m ∧ m.held ≤ s.held) ∧ Ok M (lastOf { s with conf } stopping) ∧
      (lastOf { s with conf } stopping).enabled = false ∧
      (s.buffer = none ∨ s.enabled = true ∧ conf.takes = true →
        (lastOf { s with conf } stopping).buffer = none) := by
    refine ⟨_, rfl, ?_⟩
    obtain ⟨p1, p2, p3, p4, p5⟩ := stop_spec h0
    by_cases he : s.enabled = true
    · rw [if_pos he]
      refine ⟨p1, p2, p3, ?_⟩
      rintro (hb | ⟨_, ht⟩)
      · by_cases ht : conf.takes = true
        · exact p4 he ht
        · rw [p5 (.inr (by simpa using ht))]; exact hb
      · exact p4 he ht
    · rw [if_neg he]
      refine ⟨by simp, h0, by simpa using he, ?_⟩
      rintro (hb | ⟨hx, _⟩)
      · exact hb
      · exact absurd hx he
  obtain ⟨stopping, hst, q1, q2, q3, q4⟩ := hstop
  obtain ⟨k1, k2⟩ := key _ q2 q3
  have hheld := h.held
  have hs0 : ∀ m, m = ({ s with conf } : St) ∨ m ∈ stopping →
      Mid M m ∧ (s.buffer = none ∨ s.enabled = true ∧ conf.takes = true →
        m.held + m.fresh.sum ≤ cost M) := by
    rintro m (rfl | hm)
    · exact ⟨h0.mid, fun _ => by show s.held + s.fresh.sum ≤ _; rw [h.fresh]; simpa using hheld⟩
    · obtain ⟨hm1, hm2⟩ := q1 m hm
      exact ⟨hm1.mid, fun _ => by rw [hm1.fresh]; simp only [List.sum_nil]; omega⟩
  obtain ⟨b1, b2, b3⟩ := build_spec memory l (lastOf { s with conf } stopping)
  simp only [St.start, if_neg hne, hst, hl]
  generalize hs1 : lastOf { s with conf } stopping = s1 at *
  generalize hbb : s1.build memory (l.map some) = bb at *
  obtain ⟨building, ok⟩ := bb
  cases ok with
  | false =>
    simp only [Bool.false_eq_true, if_false]
    refine ⟨?_, ?_⟩
    · intro m hm
      simp only [List.cons_append, List.mem_cons, List.mem_append] at hm
      rcases hm with hm | hm | hm
      · exact hs0 m (.inl hm)
      · exact hs0 m (.inr hm)
      · exact ⟨(k1 m hm).1, fun hc => (k1 m hm).2 (q4 hc)⟩
    · rw [List.cons_append, lastOf_cons, lastOf_append, hs1]
      exact k2 rfl
  | true =>
    simp only [if_true]
    have hlast := b2 rfl
    have hfr1 := q2.fresh
    simp only [hfr1, List.nil_append] at hlast
    simp only [hlast]
    have f3 : ∀ ns : List Nat, Ok M ({ s1 with buffer := some l, fresh := [], names := ns } : St) :=
      fun _ => ⟨rfl, by show l.sum ≤ _; omega, by simp [q3]⟩
    have f5 : ∀ ns : List Nat, Ok M
        ({ s1 with
          buffer := some l, fresh := [], names := ns, enabled := true, budget := conf.size.toNat } : St) :=
      fun _ => ⟨rfl, by show l.sum ≤ _; omega, fun _ => ⟨hs.1, hcost⟩⟩
    refine ⟨?_, ?_⟩
    · intro m hm
      simp only [List.cons_append, List.mem_cons, List.mem_append, List.not_mem_nil, or_false] at hm
      have fin : Ok M m → m.held ≤ cost M → Mid M m ∧
          (s.buffer = none ∨ s.enabled = true ∧ conf.takes = true → m.held + m.fresh.sum ≤ cost M) :=
        fun hok hx => ⟨hok.mid, fun _ => by rw [hok.fresh]; simpa using hx⟩
      rcases hm with hm | (hm | hm) | hm | hm | hm
      · exact hs0 m (.inl hm)
      · exact hs0 m (.inr hm)
      · exact ⟨(k1 m hm).1, fun hc => (k1 m hm).2 (q4 hc)⟩
      · exact fin (hm ▸ f3 _) (hm ▸ (f3 _).held)
      · exact fin (hm ▸ f3 _) (hm ▸ (f3 _).held)
      · exact fin (hm ▸ f5 _) (hm ▸ (f5 _).held)
    · rw [lastOf_append]
      simp only [lastOf_cons, lastOf_nil]
      exact f5 _

end Phosphor.Mem
