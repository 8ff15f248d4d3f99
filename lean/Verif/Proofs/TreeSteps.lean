import Verif.Proofs.TreeFree
import Verif.Proofs.TreeShape
/-!
# How many nodes a search visits
-/
namespace R53
variable {T : Type}

namespace Tr

/-- with all lower levels at most `H` high -/
theorem steps_le {H : Nat} (t : Tr T) : ∀ {k : Nat}, (∀ x ∈ t.lower, x.height ≤ H) → 1 ≤ k → t.steps k ≤ t.height + (k - 1) * H := by
  induction t with
  | nil => intro k _ _; exact Nat.zero_le _
  | node i l d r ihl ihd ihr =>
    intro k h hk
    have a := ihl (fun x hx => h x (by simp [lower, hx])) hk
    have b := ihr (fun x hx => h x (by simp [lower, hx])) hk
    have hd := h d (by simp [lower])
    simp only [steps, height]
    by_cases h1 : k ≤ 1
    · rw [if_pos h1]; omega
    · rw [if_neg h1]
      have c := ihd (k := k - 1) (fun x hx => h x (by simp [lower, hx])) (by omega)
      have e : (k - 1) * H = (k - 1 - 1) * H + H := by
        obtain ⟨j, rfl⟩ : ∃ j, k = j + 2 := ⟨k - 2, by omega⟩
        simp [Nat.succ_mul]
      omega

theorem ents_le (t : Tr T) : t.ents.length ≤ t.size := by
  induction t with
  | nil => exact Nat.le_refl _
  | node i l d r ihl _ ihr => simp only [ents, size, List.length_append, List.length_cons]; omega

theorem lower_size (t : Tr T) : ∀ x ∈ t.lower, x.size ≤ t.size := by
  induction t with
  | nil => intro x hx; simp [lower] at hx
  | node i l d r ihl ihd ihr =>
    intro x hx
    simp only [lower, List.mem_append, List.mem_cons] at hx
    simp only [size]
    rcases hx with (hx | rfl | hx) | hx
    · have := ihl x hx; omega
    · omega
    · have := ihd x hx; omega
    · have := ihr x hx; omega

theorem steps_log {t : Tr T} (h : ∀ x ∈ t.levels, x.height ≤ 2 * Nat.log2 (x.ents.length + 1)) {k : Nat} (hk : 1 ≤ k) :
    t.steps k ≤ k * (2 * Nat.log2 (t.size + 1)) := by
  have mono : ∀ {a b : Nat}, a ≤ b → Nat.log2 (a + 1) ≤ Nat.log2 (b + 1) := fun {a b} hab =>
    (Nat.le_log2 (by omega)).2 (Nat.le_trans (Nat.log2_self_le (by omega)) (by omega))
  have all : ∀ x ∈ t.levels, x.height ≤ 2 * Nat.log2 (t.size + 1) := by
    intro x hx
    have h1 := h x hx
    have h2 : x.ents.length ≤ t.size := by
      rcases List.mem_cons.1 hx with rfl | hx
      · exact x.ents_le
      · exact Nat.le_trans x.ents_le (t.lower_size x hx)
    have := mono h2
    omega
  have h3 := t.steps_le (H := 2 * Nat.log2 (t.size + 1)) (fun x hx => all x (List.mem_cons_of_mem _ hx)) hk
  have h4 := all t (List.mem_cons_self ..)
  have e : k * (2 * Nat.log2 (t.size + 1)) = (k - 1) * (2 * Nat.log2 (t.size + 1)) + 2 * Nat.log2 (t.size + 1) := by
    obtain ⟨j, rfl⟩ : ∃ j, k = j + 1 := ⟨k - 1, by omega⟩
    simp [Nat.succ_mul]
  omega

end Tr

namespace LabelSlice

theorem cmpLoop_sub {m : Build} {cs : Bool} {s o : LabelSlice} {ld : Int} : ∀ {l l1 l2 n : Nat} {r : NameComparisonResult},
    cmpLoop m cs s o ld l l1 l2 n = .ok r → r.relation = .SubDomain → r.common_label_count = (n + l) % 256 := by
  intro l
  induction l with
  | zero => intro l1 l2 n r h _; simp only [cmpLoop, Res.ok.injEq] at h; rw [← h]; rfl
  | succ l ih =>
    intro l1 l2 n r h hr
    rw [cmpLoop] at h
    obtain ⟨a, -, h⟩ := Res.bind_eq_ok.1 h
    obtain ⟨b, -, h⟩ := Res.bind_eq_ok.1 h
    obtain ⟨p1, -, h⟩ := Res.bind_eq_ok.1 h
    obtain ⟨p2, -, h⟩ := Res.bind_eq_ok.1 h
    obtain ⟨c1, -, h⟩ := Res.bind_eq_ok.1 h
    obtain ⟨c2, -, h⟩ := Res.bind_eq_ok.1 h
    obtain ⟨x, -, h⟩ := Res.bind_eq_ok.1 h
    have hm : ∀ (o : Int), r = mismatch o n → False := by
      intro o e
      rw [e, mismatch] at hr
      dsimp only at hr
      split at hr <;> cases hr
    cases x with
    | some ch => exact (hm _ (by cases h; rfl)).elim
    | none =>
      dsimp only at h
      split at h
      · exact (hm _ (by cases h; rfl)).elim
      · rw [ih h hr]; congr 1; omega

theorem label_count_ok {s : LabelSlice} {n : Nat} (h : s.label_count = .ok n) : n = s.last_label - s.first_label + 1 ∧ s.first_label ≤ s.last_label := by
  unfold label_count at h
  obtain ⟨d, hd, h⟩ := Res.bind_eq_ok.1 h
  cases h
  unfold csub at hd
  split at hd
  · cases hd; omega
  · cases hd

/-- a slice goes down by at least one label at each level -/
theorem compare_sub {m : Build} {cs : Bool} {s o : LabelSlice} {r : NameComparisonResult} (h : s.compare m o cs = .ok r) (hr : r.relation = .SubDomain)
    (hk : s.last_label - s.first_label < 255) : 1 ≤ r.common_label_count := by
  unfold LabelSlice.compare at h
  obtain ⟨a, ha, h⟩ := Res.bind_eq_ok.1 h
  obtain ⟨b, hb, h⟩ := Res.bind_eq_ok.1 h
  rw [cmpLoop_sub h hr]
  have h1 := label_count_ok ha
  have h2 := label_count_ok hb
  rw [Nat.zero_add, Nat.mod_eq_of_lt (by omega)]
  omega

theorem strip_right_ok {s s' : LabelSlice} {i : Nat} (h : s.strip_right i = .ok s') :
    s'.first_label = s.first_label ∧ s'.last_label = s.last_label - i ∧ i < s.last_label - s.first_label + 1 := by
  unfold strip_right at h
  obtain ⟨c, hc, h⟩ := Res.bind_eq_ok.1 h
  obtain ⟨_, ha, h⟩ := Res.bind_eq_ok.1 h
  obtain ⟨l, hl, h⟩ := Res.bind_eq_ok.1 h
  cases h
  have h1 := label_count_ok hc
  rw [assertR_eq_ok] at ha
  unfold csub at hl
  split at hl
  · cases hl
    refine ⟨rfl, rfl, ?_⟩
    have : i < c := ha
    omega
  · cases hl

end LabelSlice

namespace Dom

/-- the answer of a search does not depend on the number of steps allowed, when they suffice -/
theorem findLoop_enough {P : Type} {m : Build} {s : Dom T} {cb : Option (Ptr → Name → P → Bool × P)} (t : Tr T) :
    ∀ {par : Ptr} {sub : Bool} {slice : LabelSlice} {r : FindResult} {c : Chain} {p : P} {f f' : Nat}, Layout s par sub t → slice.last_label - slice.first_label < 255 →
    t.steps (slice.last_label - slice.first_label + 1) + 1 ≤ f → t.steps (slice.last_label - slice.first_label + 1) + 1 ≤ f' →
    findLoop m s cb f t.ptr slice r c p = findLoop m s cb f' t.ptr slice r c p := by
  induction t with
  | nil =>
    intro par sub slice r c p f f' _ _ hf hf'
    obtain ⟨f, rfl⟩ : ∃ j, f = j + 1 := ⟨f - 1, by omega⟩
    obtain ⟨f', rfl⟩ : ∃ j, f' = j + 1 := ⟨f' - 1, by omega⟩
    rw [findLoop, findLoop, if_pos (show (Tr.nil : Tr T).ptr = 0 from rfl), if_pos (show (Tr.nil : Tr T).ptr = 0 from rfl)]
  | node i l d rr ihl ihd ihr =>
    intro par sub slice r c p f f' hl hk hf hf'
    obtain ⟨h0, hh, h1, h2, h3⟩ := hl
    obtain ⟨f, rfl⟩ : ∃ j, f = j + 1 := ⟨f - 1, by omega⟩
    obtain ⟨f', rfl⟩ : ∃ j, f' = j + 1 := ⟨f' - 1, by omega⟩
    simp only [Tr.steps] at hf hf'
    rw [show (Tr.node i l d rr).ptr = i.addr from rfl, findLoop, findLoop, if_neg h0, if_neg h0]
    rw [show s.look i.addr = .ok _ by unfold Dom.look; rw [hh], Res.bind_ok, Res.bind_ok]
    dsimp only
    cases hc : LabelSlice.from_label_sequence (.ofLabels i.labels) with
    | err => rfl
    | panic => rfl
    | ok cur =>
      rw [Res.bind_ok, Res.bind_ok]
      cases hcm : slice.compare m cur false with
      | err => rfl
      | panic => rfl
      | ok cm =>
        rw [Res.bind_ok, Res.bind_ok]
        cases hrel : cm.relation <;> simp only
        · cases hcb : s.callback cb { c with last_compared := i.addr, last_compared_result := cm } i.addr _ p with
          | err => rfl
          | panic => rfl
          | ok x =>
            rw [Res.bind_ok, Res.bind_ok]
            obtain ⟨stop, q⟩ := x
            cases stop with
            | true => rfl
            | false =>
              simp only [Bool.false_eq_true, if_false]
              cases hp : Chain.push { c with last_compared := i.addr, last_compared_result := cm } i.addr with
              | err => rfl
              | panic => rfl
              | ok c2 =>
                rw [Res.bind_ok, Res.bind_ok]
                cases hs : slice.strip_right cm.common_label_count with
                | err => rfl
                | panic => rfl
                | ok sl =>
                  rw [Res.bind_ok, Res.bind_ok]
                  have g1 := LabelSlice.compare_sub hcm hrel hk
                  obtain ⟨g2, g3, g4⟩ := LabelSlice.strip_right_ok hs
                  have g5 : sl.last_label - sl.first_label + 1 ≤ slice.last_label - slice.first_label + 1 - 1 := by omega
                  have g6 := d.steps_mono g5
                  rw [if_neg (by omega)] at hf hf'
                  exact ihd h2 (by omega) (by omega) (by omega)
        · split
          · exact ihl h1 hk (by omega) (by omega)
          · exact ihr h3 hk (by omega) (by omega)

/-- more steps do not change the place found for an insertion -/
theorem insertLoop_more {m : Build} : ∀ {f f' : Nat} {s s' : Dom T} {par up cur : Ptr} {o : Int} {sl : LabelSlice} {r : InsertPos}, f ≤ f' →
    insertLoop m f par up cur o sl s = (.ok r, s') → insertLoop m f' par up cur o sl s = (.ok r, s') := by
  intro f
  induction f with
  | zero => intro f' s s' par up cur o sl r _ h; cases h
  | succ f ih =>
    intro f' s s' par up cur o sl r hf h
    obtain ⟨f', rfl⟩ : ∃ j, f' = j + 1 := ⟨f' - 1, by omega⟩
    rw [insertLoop] at h ⊢
    split at h
    · rename_i h0; rw [if_pos h0]; exact h
    · rename_i h0
      rw [if_neg h0]
      obtain ⟨n, s1, e1, h⟩ := St.bind_ok_inv h
      rw [St.bind_ok e1]
      obtain ⟨c, s2, e2, h⟩ := St.bind_ok_inv h
      rw [St.bind_ok e2]
      obtain ⟨x, s3, e3, h⟩ := St.bind_ok_inv h
      rw [St.bind_ok e3]
      cases hrel : x.relation <;> simp only [hrel] at h ⊢
      · obtain ⟨y, s4, e4, h⟩ := St.bind_ok_inv h
        rw [St.bind_ok e4]
        obtain ⟨z, s5, e5, h⟩ := St.bind_ok_inv h
        rw [St.bind_ok e5]
        exact ih (by omega) h
      · obtain ⟨y, s4, e4, h⟩ := St.bind_ok_inv h
        rw [St.bind_ok e4]
        exact ih (by omega) h
      · exact h
      · obtain ⟨y, s4, e4, h⟩ := St.bind_ok_inv h
        rw [St.bind_ok e4]
        obtain ⟨z, s5, e5, h⟩ := St.bind_ok_inv h
        rw [St.bind_ok e5]
        exact ih (by omega) h
      · exact ih (by omega) h

end Dom
end R53
