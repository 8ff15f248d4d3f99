import Verif.Model.RandName
import Verif.Props.NameText
/-!
# C67: random names
-/
namespace R53.RandName
open Name

/-- letters a to z, digits and the hyphen -/
def HostChar (c : UInt8) : Prop := (97 ≤ c ∧ c ≤ 122) ∨ (48 ≤ c ∧ c ≤ 57) ∨ c = 45
instance (c : UInt8) : Decidable (HostChar c) := by unfold HostChar; infer_instance

theorem valid_host : ∀ c ∈ VALID_DOMAIN_CHAR, HostChar c := by decide

theorem gen_range_spec (o : Nat → Nat) {lo hi : Nat} (h : lo < hi) (k : Nat) :
    ∃ v, gen_range o lo hi k = (.ok v, k + 1) ∧ lo ≤ v ∧ v < hi := by
  refine ⟨lo + o k % (hi - lo), by simp [gen_range, h], by omega, ?_⟩
  have := Nat.mod_lt (o k) (show 0 < hi - lo by omega)
  omega

theorem gen_label_spec (o : Nat → Nat) : ∀ (len k : Nat), ∃ l k', gen_label o len k = (.ok l, k') ∧ l.length = len ∧ ∀ c ∈ l, HostChar c := by
  intro len
  induction len with
  | zero => intro k; exact ⟨[], k, rfl, rfl, by simp⟩
  | succ n ih =>
    intro k
    obtain ⟨i, h1, -, h2⟩ := gen_range_spec o (show 0 < VALID_DOMAIN_CHAR.length by decide) k
    obtain ⟨l, k', h3, h4, h5⟩ := ih (k + 1)
    refine ⟨VALID_DOMAIN_CHAR[i] :: l, k', ?_, by simp [h4], ?_⟩
    · rw [gen_label, St.bind_ok h1, St.lift_ok_bind (idx_of_lt h2), St.bind_ok h3]; rfl
    · intro c hc
      rcases List.mem_cons.1 hc with rfl | hc
      · exact valid_host _ (List.getElem_mem h2)
      · exact h5 c hc

theorem label_len_spec (o : Nat → Nat) {mx : Nat} (h : 1 ≤ mx) (last : Bool) (k : Nat) :
    ∃ n k', label_len o mx last k = (.ok n, k') ∧ 1 ≤ n ∧ n ≤ mx ∧ (n = mx → mx = 1 ∨ last = true) := by
  unfold label_len
  split
  · rename_i e; exact ⟨1, k, rfl, by omega, by omega, fun _ => .inl e⟩
  · split
    · rename_i e; exact ⟨mx, k, rfl, h, Nat.le_refl _, fun _ => .inr e⟩
    · obtain ⟨v, h1, h2, h3⟩ := gen_range_spec o (show 1 < mx by omega) k
      exact ⟨v, k + 1, h1, h2, by omega, fun e => by omega⟩

/-- labels of 1 to 63 host characters -/
def HostLabel (l : Label) : Prop := ValidLabel l ∧ ∀ c ∈ l, HostChar c

/-- labels of at most 62 octets -/
def Short (l : Label) : Prop := l.length ≤ 62

/-- the loop: what is there ends with a dot (or is empty) and leaves room; the result ends with a label -/
theorem genLoop_spec (o : Nat → Nat) (len : Nat) (hl : len ≤ 253) : ∀ (left : Nat) (ls : List Label) (k : Nat), 1 ≤ left →
    (∀ l ∈ ls, HostLabel l ∧ Short l) → (dotted ls).length < len →
    ∃ ls' l k', genLoop o len left (dotted ls).length (dotted ls) k = (.ok (dotted ls' ++ l), k') ∧
      (∀ x ∈ ls', HostLabel x ∧ Short x) ∧ HostLabel l ∧ (dotted ls' ++ l).length ≤ len := by
  intro left
  induction left with
  | zero => intro ls k h; omega
  | succ left ih =>
    intro ls k _ hls hroom
    rw [genLoop, St.lift_ok_bind (csub_ok (Nat.le_of_lt hroom))]
    have hm : 1 ≤ min MAX_LABEL_LEN (len - (dotted ls).length) := by unfold MAX_LABEL_LEN; omega
    have hm2 : min MAX_LABEL_LEN (len - (dotted ls).length) ≤ 63 := by unfold MAX_LABEL_LEN; omega
    have hm3 : min MAX_LABEL_LEN (len - (dotted ls).length) ≤ len - (dotted ls).length := by omega
    have hm4 : min MAX_LABEL_LEN (len - (dotted ls).length) = 63 ∨ min MAX_LABEL_LEN (len - (dotted ls).length) = len - (dotted ls).length := by
      unfold MAX_LABEL_LEN; omega
    generalize min MAX_LABEL_LEN (len - (dotted ls).length) = mx at *
    obtain ⟨n, k1, e1, n1, n2, n3⟩ := label_len_spec o hm (left == 0) k
    obtain ⟨l, k2, e2, l1, l2⟩ := gen_label_spec o n k1
    simp only
    rw [St.bind_ok e1, St.bind_ok e2, St.lift_ok_bind (cadd8_ok (by omega))]
    have hlab : HostLabel l := ⟨⟨by omega, by omega⟩, l2⟩
    unfold after_label
    by_cases g1 : (dotted ls).length + n < len
    · rw [if_pos g1]
      by_cases g2 : (dotted ls).length + n + 1 = len
      · rw [if_pos g2]
        by_cases g3 : n < mx
        · rw [if_pos g3]
          obtain ⟨c, k3, e3, c1, c2⟩ := gen_label_spec o 1 k2
          refine ⟨ls, l ++ c, k3, ?_, hls, ⟨⟨by simp; omega, by simp; omega⟩, ?_⟩, by simp; omega⟩
          · rw [St.bind_ok (a := (c, (dotted ls).length + n + 1)) (s' := k3)]
            · simp only
              rw [if_pos g2, List.append_assoc]; rfl
            · rw [St.bind_ok e3, St.lift_ok_bind (cadd8_ok (by omega))]; rfl
          · intro x hx
            rcases List.mem_append.1 hx with h | h
            · exact l2 x h
            · exact c2 x h
        · rw [if_neg g3]
          have hlast : left = 0 := by
            rcases n3 (by omega) with h | h
            · omega
            · simpa using h
          subst hlast
          refine ⟨ls, l, k2, ?_, hls, hlab, by simp; omega⟩
          rw [St.bind_ok (show (pure (([] : List UInt8), (dotted ls).length + n) : St Nat (List UInt8 × Nat)) k2 = (.ok ([], (dotted ls).length + n), k2) from rfl)]
          simp only
          rw [if_neg (by omega), genLoop, List.append_nil]; rfl
      · rw [if_neg g2]
        by_cases g4 : left = 0
        · subst g4
          rw [if_neg (by simp)]
          refine ⟨ls, l, k2, ?_, hls, hlab, by simp; omega⟩
          rw [St.bind_ok (show (pure (([] : List UInt8), (dotted ls).length + n) : St Nat (List UInt8 × Nat)) k2 = (.ok ([], (dotted ls).length + n), k2) from rfl)]
          simp only
          rw [if_neg (by omega), genLoop, List.append_nil]; rfl
        · rw [if_pos (by simpa using g4)]
          have hd : ∀ ls : List Label, dotted (ls ++ [l]) = dotted ls ++ l ++ [46] := by
            intro ls
            induction ls with
            | nil => simp [dotted]
            | cons x ls ih => simp [dotted, ih]
          have hlen : (dotted (ls ++ [l])).length = (dotted ls).length + n + 1 := by rw [hd]; simp; omega
          obtain ⟨ls', l', k', f1, f2, f3, f4⟩ := ih (ls ++ [l]) k2 (by omega)
            (by
              intro x hx
              rcases List.mem_append.1 hx with h | h
              · exact hls x h
              · rw [List.mem_singleton] at h; subst h
                refine ⟨hlab, ?_⟩
                show x.length ≤ 62
                rw [l1]
                by_cases hc : n = mx
                · rcases n3 hc with h | h
                  · omega
                  · exact absurd (by simpa using h) g4
                · omega) (by omega)
          refine ⟨ls', l', k', ?_, f2, f3, f4⟩
          rw [St.bind_ok (a := ([46], (dotted ls).length + n + 1)) (s' := k2)]
          · simp only
            rw [if_neg g2, ← hlen, ← hd]
            exact f1
          · rw [St.lift_ok_bind (cadd8_ok (by omega))]; rfl
    · rw [if_neg g1]
      refine ⟨ls, l, k2, ?_, hls, hlab, by simp; omega⟩
      rw [St.bind_ok (show (pure (([] : List UInt8), (dotted ls).length + n) : St Nat (List UInt8 × Nat)) k2 = (.ok ([], (dotted ls).length + n), k2) from rfl)]
      simp only
      rw [if_pos (by omega), List.append_nil]; rfl

theorem host_plain (c : UInt8) (h : HostChar c) : c ≠ 46 ∧ c ≠ 92 ∧ c ≠ 64 := by
  revert h; revert c; apply forall_u8'; decide +kernel

theorem splitDots_last (ls : List Label) (l : Label) (h : ∀ x ∈ ls, HostLabel x) (hl : HostLabel l) : splitDots (dotted ls ++ l) = ls ++ [l] := by
  have aux : ∀ (l : Label) (t : List UInt8), (∀ c ∈ l, HostChar c) → splitDots (l ++ 46 :: t) = l :: splitDots t := by
    intro l t hl
    induction l with
    | nil => simp [splitDots]
    | cons c l ih =>
      have hc := (host_plain c (hl c (by simp))).1
      simp only [List.cons_append, splitDots, if_neg hc, ih (fun x h' => hl x (by simp [h']))]
  have last : ∀ l : Label, (∀ c ∈ l, HostChar c) → splitDots l = [l] := by
    intro l hl
    induction l with
    | nil => rfl
    | cons c l ih =>
      have hc := (host_plain c (hl c (by simp))).1
      simp only [splitDots, if_neg hc, ih (fun x h' => hl x (by simp [h']))]
  induction ls with
  | nil => exact last l hl.2
  | cons x ls ih =>
    rw [dotted, List.append_assoc, List.cons_append, aux x _ (h x (by simp)).2, ih (fun y hy => h y (by simp [hy]))]; rfl

theorem dotted_wire (ls : List Label) : (wire ls).length = (dotted ls).length := by
  induction ls with
  | nil => rfl
  | cons l ls ih => simp [wire, dotted, labelWire] at ih ⊢; omega

theorem new_of_labels {ls : List Label} {l : Label} (h : ∀ x ∈ ls, HostLabel x) (hl : HostLabel l) (hlen : (dotted ls ++ l).length ≤ 253) :
    ValidName (ls ++ [l]) ∧ Name.new (dotted ls ++ l) = .ok (ofLabels (ls ++ [l])) := by
  have hne : l ≠ [] := by intro e; subst e; have := hl.1.1; simp at this
  have hv : ValidName (ls ++ [l]) := by
    refine ⟨?_, ?_⟩
    · intro x hx
      rcases List.mem_append.1 hx with h' | h'
      · exact (h x h').1
      · rw [List.mem_singleton] at h'; subst h'; exact hl.1
    · have := dotted_wire ls
      simp [nameWire, wire, labelWire] at this hlen ⊢; omega
  refine ⟨hv, ?_⟩
  have hmem : ∀ c ∈ dotted ls ++ l, c ≠ 92 := by
    intro c hc
    rcases List.mem_append.1 hc with h' | h'
    · clear hv hlen
      induction ls with
      | nil => simp [dotted] at h'
      | cons x ls ih =>
        rw [dotted, List.mem_append, List.mem_cons] at h'
        rcases h' with h' | h' | h'
        · exact (host_plain c ((h x (by simp)).2 c h')).2.1
        · subst h'; decide
        · exact ih (fun y hy => h y (by simp [hy])) (by simp [h']) h'
    · exact (host_plain c (hl.2 c h')).2.1
  have hlast : ∃ a c, dotted ls ++ l = a ++ [c] ∧ HostChar c := by
    refine ⟨dotted ls ++ l.dropLast, l.getLast hne, ?_, hl.2 _ (List.getLast_mem hne)⟩
    rw [List.append_assoc, List.dropLast_concat_getLast]
  have hd : denotes (dotted ls ++ l) = some (ls ++ [l]) := by
    unfold denotes
    rw [splitDots_last ls l h hl]
    have hf : dropFinal (ls ++ [l]) = ls ++ [l] := by unfold dropFinal; rw [if_neg (by simp [hne])]
    obtain ⟨a, c, e, hc⟩ := hlast
    have hcc := host_plain c hc
    rw [if_neg, hf, if_pos ⟨by simp, hv⟩]
    rw [e]
    intro hx
    rcases hx with hx | hx
    · have := congrArg List.getLast? hx; simp at this; exact hcc.1 this
    · have := congrArg List.getLast? hx; simp at this; exact hcc.2.2 this
  exact (c06_plain_text_partial _ (fun hx => hmem 92 hx rfl)).1 _ hd

/-- the text of a generated name parses: whatever the draws, it is 1 to 253 characters, labels of 1 to 63 letters, digits and hyphens
joined by dots -/
theorem c67_text (o : Nat → Nat) (k : Nat) :
    ∃ t k' ls, gen_name_string o k = (.ok t, k') ∧ 1 ≤ t.length ∧ t.length ≤ 253 ∧
      ls ≠ [] ∧ ValidName ls ∧ (∀ l ∈ ls, ∀ c ∈ l, HostChar c) ∧ (∀ l ∈ ls.dropLast, l.length ≤ 62) ∧ denotes t = some ls ∧ Name.new t = .ok (ofLabels ls) := by
  obtain ⟨len, h1, h2, h3⟩ := gen_range_spec o (show 1 < MAX_WIRE_LEN - 1 by decide) k
  obtain ⟨cnt, g1, g2, -⟩ := gen_range_spec o (show 1 < MAX_LABEL_COUNT + 1 by decide) (k + 1)
  have h3' : len ≤ 253 := by unfold MAX_WIRE_LEN at h3; omega
  obtain ⟨ls, l, k', e, a0, a2, a3⟩ := genLoop_spec o len h3' cnt [] (k + 1 + 1) g2 (by simp) (by simp [dotted]; omega)
  have a1 : ∀ x ∈ ls, HostLabel x := fun x hx => (a0 x hx).1
  obtain ⟨hv, hn⟩ := new_of_labels a1 a2 (by omega)
  have hl1 := a2.1.1
  have hall : ∀ x ∈ ls ++ [l], ∀ c ∈ x, HostChar c := by
    intro x hx
    rcases List.mem_append.1 hx with h | h
    · exact (a1 x h).2
    · rw [List.mem_singleton] at h; subst h; exact a2.2
  refine ⟨_, k', ls ++ [l], ?_, by simp; omega, by omega, by simp, hv, hall, by rw [List.dropLast_concat]; exact fun x hx => (a0 x hx).2, ?_, hn⟩
  · rw [gen_name_string, St.bind_ok h1, St.bind_ok g1]; exact e
  · have hne : l ≠ [] := by intro e; subst e; simp at hl1
    unfold denotes
    rw [splitDots_last ls l a1 a2]
    have hf : dropFinal (ls ++ [l]) = ls ++ [l] := by unfold dropFinal; rw [if_neg (by simp [hne])]
    have hg : ∀ c, (dotted ls ++ l).getLast? = some c → HostChar c := by
      intro c hc
      rw [List.getLast?_append] at hc
      cases hq : l.getLast? with
      | none => rw [List.getLast?_eq_none_iff] at hq; exact absurd hq hne
      | some y => rw [hq] at hc; simp at hc; subst hc; exact a2.2 _ (List.mem_of_getLast? hq)
    rw [if_neg, hf, if_pos ⟨by simp, hv⟩]
    rintro (hx | hx)
    · exact absurd rfl (host_plain 46 (hg 46 (by rw [hx]; rfl))).1
    · exact absurd rfl (host_plain 64 (hg 64 (by rw [hx]; rfl))).2.2

/-- the generator never panics, and yields valid names only, for ever -/
theorem c67_names (o : Nat → Nat) (n : Nat) : ∀ k, ∃ ns k', take o n k = (.ok ns, k') ∧ ns.length = n ∧
    ∀ x ∈ ns, ∃ ls, ls ≠ [] ∧ ValidName ls ∧ x = ofLabels ls ∧ ∀ l ∈ ls, ∀ c ∈ l, HostChar c := by
  induction n with
  | zero => intro k; exact ⟨[], k, rfl, rfl, by simp⟩
  | succ n ih =>
    intro k
    obtain ⟨t, k1, ls, e, -, -, h1, h2, h3, -, -, h4⟩ := c67_text o k
    obtain ⟨ns, k2, e2, g1, g2⟩ := ih k1
    have hn : next o k = (.ok (ofLabels ls), k1) := by
      unfold next; rw [St.bind_ok e, h4]; rfl
    refine ⟨ofLabels ls :: ns, k2, ?_, by simp [g1], ?_⟩
    · rw [take, St.bind_ok hn, St.bind_ok e2]; rfl
    · intro x hx
      rcases List.mem_cons.1 hx with rfl | hx
      · exact ⟨ls, h1, h2, rfl, h3⟩
      · exact g2 x hx

/-! ## which names are drawn -/

/-- with the draws `ds` from any place of the sequence on, the answer is `a` -/
def Draws {α : Type} (f : (Nat → Nat) → St Nat α) (a : α) (ds : List Nat) : Prop :=
  ∀ o k, (∀ i (h : i < ds.length), o (k + i) = ds[i]) → f o k = (.ok a, k + ds.length)

theorem Draws.bind {α β : Type} {f : (Nat → Nat) → St Nat α} {g : (Nat → Nat) → α → St Nat β} {a : α} {b : β} {ds es : List Nat}
    (h1 : Draws f a ds) (h2 : Draws (fun o => g o a) b es) : Draws (fun o => f o >>= g o) b (ds ++ es) := by
  intro o k h
  have e1 := h1 o k fun i hi => by
    have := h i (by simp; omega)
    rw [this, List.getElem_append_left hi]
  show (f o >>= g o) k = _
  rw [St.bind_ok e1]
  have e2 := h2 o (k + ds.length) fun i hi => by
    have := h (ds.length + i) (by simp; omega)
    rw [Nat.add_assoc, this, List.getElem_append_right (by omega)]
    congr 1; omega
  have e3 : g o a (k + ds.length) = _ := e2
  rw [e3]; simp [Nat.add_assoc]

theorem Draws.pure {α : Type} (a : α) : Draws (fun _ => (Pure.pure a : St Nat α)) a [] := fun _ _ _ => rfl

theorem Draws.lift {α : Type} {r : Res α} {a : α} (h : r = .ok a) : Draws (fun _ => (St.lift r : St Nat α)) a [] := by
  subst h; exact fun _ _ _ => rfl

theorem Draws.range {lo hi v : Nat} (h1 : lo ≤ v) (h2 : v < hi) : Draws (fun o => gen_range o lo hi) v [v - lo] := by
  intro o k h
  have h0 := h 0 (by simp)
  simp only [Nat.add_zero, List.getElem_cons_zero] at h0
  show gen_range o lo hi k = _
  unfold gen_range
  rw [if_pos (by omega), h0, Nat.mod_eq_of_lt (by omega), Nat.add_sub_cancel' h1]; rfl

theorem host_valid : ∀ c, HostChar c → c ∈ VALID_DOMAIN_CHAR := by
  intro c; revert c; apply forall_u8'; decide +kernel

theorem Draws.label : ∀ (l : Label), (∀ c ∈ l, HostChar c) → ∃ ds, Draws (fun o => gen_label o l.length) l ds := by
  intro l
  induction l with
  | nil => exact fun _ => ⟨[], Draws.pure _⟩
  | cons c l ih =>
    intro h
    obtain ⟨ds, hd⟩ := ih fun x hx => h x (by simp [hx])
    obtain ⟨i, hi, e⟩ := List.getElem_of_mem (host_valid c (h c (by simp)))
    refine ⟨[i - 0] ++ ([] ++ (ds ++ [])), ?_⟩
    refine Draws.bind (f := fun o => gen_range o 0 VALID_DOMAIN_CHAR.length) (Draws.range (Nat.zero_le _) hi) ?_
    refine Draws.bind (f := fun _ => St.lift (idx VALID_DOMAIN_CHAR i)) (a := c) (Draws.lift (by rw [idx_of_lt hi, e])) ?_
    exact Draws.bind (f := fun o => gen_label o l.length) hd (Draws.pure _)

theorem Draws.loop (len : Nat) (hl : len ≤ 253) : ∀ (rest : List Label) (ls : List Label) (l : Label), (∀ x ∈ rest, HostLabel x ∧ Short x) → HostLabel l →
    (dotted ls).length + (dotted rest).length + l.length = len →
    ∃ ds, Draws (fun o => genLoop o len (rest.length + 1) (dotted ls).length (dotted ls)) (dotted (ls ++ rest) ++ l) ds := by
  have hsnoc : ∀ (ls : List Label) (x : Label), dotted (ls ++ [x]) = dotted ls ++ x ++ [46] := by
    intro ls x
    induction ls with
    | nil => simp [dotted]
    | cons y ls ih => simp [dotted, ih]
  intro rest
  induction rest with
  | nil =>
    intro ls l _ h2 h3
    simp only [dotted, List.length_nil, Nat.add_zero] at h3
    have hl1 := h2.1.1
    have hl2 := h2.1.2
    have hroom : len - (dotted ls).length = l.length := by omega
    have hmin : min MAX_LABEL_LEN l.length = l.length := by unfold MAX_LABEL_LEN; omega
    have hlen : Draws (fun o => label_len o l.length true) l.length [] := by
      unfold label_len
      by_cases h1 : l.length = 1
      · simp only [h1, if_true]; exact Draws.pure _
      · simp only [if_neg h1, if_true]; exact Draws.pure _
    obtain ⟨ds, hd⟩ := Draws.label l h2.2
    refine ⟨[] ++ ([] ++ (ds ++ ([] ++ ([] ++ [])))), ?_⟩
    rw [List.append_nil ls]
    show Draws (fun o => genLoop o len (0 + 1) (dotted ls).length (dotted ls)) (dotted ls ++ l) _
    unfold genLoop
    refine Draws.bind (f := fun _ => St.lift (csub len (dotted ls).length)) (a := l.length) (Draws.lift (by rw [csub_ok (by omega), hroom])) ?_
    simp only [hmin]
    refine Draws.bind (f := fun o => label_len o l.length true) hlen ?_
    refine Draws.bind (f := fun o => gen_label o l.length) (es := [] ++ ([] ++ [])) hd ?_
    refine Draws.bind (f := fun _ => St.lift (cadd8 (dotted ls).length l.length)) (Draws.lift (cadd8_ok (by omega))) ?_
    refine Draws.bind (f := fun o => after_label o len ((dotted ls).length + l.length) l.length l.length true) (a := ([], len)) ?_ ?_
    · unfold after_label
      simp only [h3, Nat.lt_irrefl, if_false]; exact Draws.pure _
    · simp only [if_true, List.append_nil]; exact Draws.pure _
  | cons x rest ih =>
    intro ls l h1 h2 h3
    have hx := h1 x (by simp)
    have hx1 := hx.1.1.1
    have hx2 : x.length ≤ 62 := hx.2
    have hl1 := h2.1.1
    simp only [dotted, List.length_append, List.length_cons] at h3
    obtain ⟨ds, hd⟩ := Draws.label x hx.1.2
    obtain ⟨es, he⟩ := ih (ls ++ [x]) l (fun y hy => h1 y (by simp [hy])) h2 (by rw [hsnoc]; simp; omega)
    have hmx : x.length < min MAX_LABEL_LEN (len - (dotted ls).length) := by unfold MAX_LABEL_LEN; omega
    have hlen : Draws (fun o => label_len o (min MAX_LABEL_LEN (len - (dotted ls).length)) false) x.length [x.length - 1] := by
      unfold label_len
      simp only [if_neg (show ¬ min MAX_LABEL_LEN (len - (dotted ls).length) = 1 by omega), Bool.false_eq_true, if_false]
      exact Draws.range hx1 hmx
    refine ⟨[] ++ ([x.length - 1] ++ (ds ++ ([] ++ (([] ++ []) ++ es)))), ?_⟩
    simp only [List.length_cons]
    unfold genLoop
    refine Draws.bind (f := fun _ => St.lift (csub len (dotted ls).length)) (a := len - (dotted ls).length) (Draws.lift (csub_ok (by omega))) ?_
    simp only [show (rest.length + 1 == 0) = false from rfl]
    refine Draws.bind (f := fun o => label_len o _ false) hlen ?_
    refine Draws.bind (f := fun o => gen_label o x.length) hd ?_
    refine Draws.bind (f := fun _ => St.lift (cadd8 (dotted ls).length x.length)) (Draws.lift (cadd8_ok (by omega))) ?_
    refine Draws.bind (f := fun o => after_label o len ((dotted ls).length + x.length) x.length _ false) (a := ([46], (dotted ls).length + x.length + 1)) ?_ ?_
    · unfold after_label
      simp only [if_pos (show (dotted ls).length + x.length < len by omega), if_neg (show ¬ (dotted ls).length + x.length + 1 = len by omega), if_true]
      exact Draws.bind (f := fun _ => St.lift (cadd8 ((dotted ls).length + x.length) 1)) (Draws.lift (cadd8_ok (by omega))) (Draws.pure _)
    · simp only [if_neg (show ¬ (dotted ls).length + x.length + 1 = len by omega)]
      have e1 : (dotted ls).length + x.length + 1 = (dotted (ls ++ [x])).length := by rw [hsnoc]; simp; omega
      rw [e1, ← hsnoc, show ls ++ x :: rest = ls ++ [x] ++ rest by simp]
      exact he

theorem dotted_length (ls : List Label) (h : ∀ l ∈ ls, 1 ≤ l.length) : 2 * ls.length ≤ (dotted ls).length := by
  induction ls with
  | nil => simp [dotted]
  | cons l ls ih =>
    have := ih fun x hx => h x (by simp [hx])
    have := h l (by simp)
    simp [dotted]; omega

/-- exactly which names are drawn: for some draws the next name has the labels `ls`, if and only if there is at least one, they are of
letters a to z, digits and hyphens, and all but the last have at most 62 octets -/
theorem c67_range (ls : List Label) (hv : ValidName ls) :
    (∃ o k k', next o k = (.ok (ofLabels ls), k')) ↔ ls ≠ [] ∧ (∀ l ∈ ls, ∀ c ∈ l, HostChar c) ∧ ∀ l ∈ ls.dropLast, l.length ≤ 62 := by
  constructor
  · rintro ⟨o, k, k', h⟩
    obtain ⟨t, k1, ls1, e, -, -, h1, h2, h3, h5, -, h4⟩ := c67_text o k
    have hn : next o k = (.ok (ofLabels ls1), k1) := by
      unfold next; rw [St.bind_ok e, h4]; rfl
    rw [hn] at h
    have hls : ls1 = ls := ofLabels_inj h2 hv (by have := congrArg Prod.fst h; simpa using this)
    subst hls
    exact ⟨h1, h3, h5⟩
  · rintro ⟨h1, h2, h3⟩
    obtain ⟨as, a, rfl⟩ : ∃ as a, ls = as ++ [a] := ⟨_, _, (List.dropLast_concat_getLast h1).symm⟩
    rw [List.dropLast_concat] at h3
    have has : ∀ x ∈ as, HostLabel x ∧ Short x := fun x hx => ⟨⟨hv.1 x (by simp [hx]), h2 x (by simp [hx])⟩, h3 x hx⟩
    have ha : HostLabel a := ⟨hv.1 a (by simp), h2 a (by simp)⟩
    have hw : (dotted as).length + a.length ≤ 253 := by
      have h4 := hv.2
      have := dotted_wire as
      simp [nameWire, wire, labelWire] at this h4; omega
    have hpos : 1 ≤ a.length := ha.1.1
    have hcnt := dotted_length as fun x hx => (has x hx).1.1.1
    obtain ⟨ds, hd⟩ := Draws.loop ((dotted as).length + a.length) hw as [] a has ha (by simp [dotted])
    have hall : Draws gen_name_string (dotted as ++ a) ([(dotted as).length + a.length - 1] ++ ([as.length + 1 - 1] ++ ds)) := by
      refine Draws.bind (f := fun o => gen_range o 1 (MAX_WIRE_LEN - 1)) (Draws.range (by omega) (by unfold MAX_WIRE_LEN; omega)) ?_
      refine Draws.bind (f := fun o => gen_range o 1 (MAX_LABEL_COUNT + 1)) (Draws.range (by omega) (by unfold MAX_LABEL_COUNT; omega)) ?_
      simpa [dotted] using hd
    generalize [(dotted as).length + a.length - 1] ++ ([as.length + 1 - 1] ++ ds) = es at hall
    refine ⟨fun i => es.getD i 0, 0, 0 + es.length, ?_⟩
    have e := hall (fun i => es.getD i 0) 0 fun i hi => by simp [hi]
    unfold next
    rw [St.bind_ok e, (new_of_labels (fun x hx => (has x hx).1) ha (by simpa using hw)).2]; rfl

/-- `w8.n-` is drawn; no name whose first of two labels has 63 octets is -/
example : (∃ o k k', next o k = (.ok (ofLabels [[119, 56], [110, 45]]), k')) ∧
    ¬ ∃ o k k', next o k = (.ok (ofLabels [List.replicate 63 97, [97]]), k') := by
  refine ⟨(c67_range _ (by decide)).2 (by decide +kernel), fun h => ?_⟩
  have := ((c67_range _ (by decide +kernel)).1 h).2.2
  revert this
  decide +kernel

/-- not every outcome is the same: a name of two labels, and one of the greatest length -/
theorem c67_example : (gen_name_string (fun k => if k = 0 then 5 else if k = 1 then 2 else k) 0).1 = .ok [100, 101, 102, 46, 104, 105] ∧
    ∃ t, (gen_name_string (fun k => if k = 0 then 252 else if k = 1 then 3 else 61) 0).1 = .ok t ∧ 200 < t.length := by
  refine ⟨by decide +kernel, _, rfl, by decide +kernel⟩

end R53.RandName
