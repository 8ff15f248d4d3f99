import Verif.Spec.Hops
import Verif.Props.Wider
import Verif.Props.Decode
/-!
# C109: any number of forwarders are like one
-/
namespace R53

theorem cut_typed {m : Response} (hm : m.Typed) : m.cut.Typed :=
  ⟨hm.question, fun t sets hs => by cases t <;> simp [Response.section_, Response.cut] at hs⟩

theorem cut_fitsIn {L : Nat} {m : Response} (hm : m.FitsIn L) (L' : Nat) : m.cut.FitsIn L' :=
  ⟨hm.question, trivial, trivial, trivial, cut_flag _ hm.flag, hm.qd, rfl, rfl, rfl⟩

/-- the truncated message needs the room of header and question -/
theorem cut_written {m : Response} (hm : m.Typed) : ∃ x, m.cut.written = some x ∧ x.room = m.headSize ∧ x.octets = m.cut.encodedBy .table := by
  obtain ⟨d, hh⟩ := seekHead (cut_typed hm)
  refine ⟨_, Seek.seq_some.mpr ⟨_, ⟨[], d, 0⟩, hh, rfl, rfl⟩, ?_, ?_⟩
  · simp [Response.headSize, Header.octets_length, be16_length, Response.cut]
  · rw [show m.cut.encodedBy .table = _ from cut_encoded .table hm m.cut.header]
    simp [Response.cut]

theorem cut_decodes {L : Nat} {m : Response} (hm : m.FitsIn L) : Response.from_wire (m.cut.encodedBy .table) = .ok m.cut := by
  have hf : m.cut.Fits := (cut_fitsIn hm 0).fits (Or.inr fun t sets hs => by cases t <;> simp [Response.section_, Response.cut] at hs)
  have := (c73_decodes .table m.cut hf []).2
  rwa [List.append_nil] at this

/-- the truncated message is sent on as it is -/
theorem hop_cut {L : Nat} {m : Response} (hm : m.FitsIn L) {b : List UInt8} (hb : m.headSize ≤ b.length) :
    hop (m.cut.encodedBy .table) b = some (m.cut.encodedBy .table) := by
  obtain ⟨x, k1, k2, k3⟩ := cut_written hm.typed
  obtain ⟨r, e1, e2⟩ := (c73_exact m.cut (cut_typed hm.typed) b).1 x k1 (by omega)
  unfold hop
  rw [cut_decodes hm]
  simp only [e1]
  rw [e2, List.take_length, k3]

/-- what a forwarder sends, exactly -/
theorem hop_iff {raw : List UInt8} {m : Response} (h : Response.from_wire raw = .ok m) {b : List UInt8} (out : List UInt8) :
    hop raw b = some out ↔ (∃ x, m.written = some x ∧ x.room ≤ b.length ∧ out = x.octets) ∨
      ((∀ x, m.written = some x → b.length < x.room) ∧ m.headSize + m.firstPiece .table ≤ b.length ∧ out = m.cut.encodedBy .table) := by
  have ht : m.Typed := (c76_fits raw m h 0 (by omega)).typed
  obtain ⟨k1, k2, k3, k4⟩ := c73_exact m ht b
  unfold hop
  rw [h]
  simp only
  by_cases hx : ∃ x, m.written = some x ∧ x.room ≤ b.length
  · obtain ⟨x, a, c⟩ := hx
    obtain ⟨r, e1, e2⟩ := k1 x a c
    rw [e1]
    simp only [Option.some.injEq]
    rw [e2, List.take_length]
    constructor
    · intro e; exact Or.inl ⟨x, a, c, e.symm⟩
    · rintro (⟨y, b1, b2, b3⟩ | ⟨b1, _, _⟩)
      · obtain rfl := Option.some.inj (a.symm.trans b1); exact b3.symm
      · have := b1 x a; omega
  · have hno : ∀ x, m.written = some x → b.length < x.room := fun x a => by
      by_cases c : x.room ≤ b.length
      · exact absurd ⟨x, a, c⟩ hx
      · omega
    have hl : ¬ ∃ x, m.written = some x ∧ x.room ≤ b.length ∧ out = x.octets := fun ⟨x, a, c, _⟩ => hx ⟨x, a, c⟩
    by_cases c : m.headSize + m.firstPiece .table ≤ b.length
    · obtain ⟨r, e1, e2⟩ := k2 hno c
      rw [e1]
      simp only [Option.some.injEq]
      have : m.headSize = (m.cut.encodedBy .table).length := by
        obtain ⟨x, d1, d2, d3⟩ := cut_written ht
        rw [show m.cut.encodedBy .table = _ from cut_encoded .table ht m.cut.header]
        simp [Response.headSize, Header.octets_length, be16_length]
      rw [e2, this, List.take_length]
      constructor
      · intro e; exact Or.inr ⟨hno, by rw [← this]; exact c, e.symm⟩
      · rintro (e | ⟨_, _, e⟩)
        · exact absurd e hl
        · exact e.symm
    · have hnok : ∀ n r, m.to_wire (Render.new b) ≠ (.ok n, r) := fun n r e => by
        by_cases c2 : b.length < m.headSize
        · have := k4 c2; rw [e] at this; simp at this
        · have hrec : m.records ≠ [] := fun c => by
            obtain ⟨x, d1, d2, _⟩ := written_norecords ht c
            have := hno x d1; omega
          have := k3 hrec (by omega) (by omega); rw [e] at this; simp at this
      rcases hw : m.to_wire (Render.new b) with ⟨x | _ | _, r⟩
      · exact absurd hw (hnok x r)
      · simp only [reduceCtorEq, false_iff]
        rintro (e | ⟨_, e, _⟩)
        · exact hl e
        · exact c e
      · simp only [reduceCtorEq, false_iff]
        rintro (e | ⟨_, e, _⟩)
        · exact hl e
        · exact c e

/-- the octets of a message sent whole decode to it -/
theorem written_decodes {raw : List UInt8} {m : Response} (h : Response.from_wire raw = .ok m) {b : List UInt8} (hb : b.length ≤ 65535) {x : Written}
    (hx : m.written = some x) (hr : x.room ≤ b.length) : Response.from_wire x.octets = .ok m := by
  obtain ⟨n, r, e1, e2⟩ := (c76_whole_iff raw m h b hb).mpr ⟨x, hx, hr⟩
  obtain ⟨r', f1, f2⟩ := (c73_exact m (c76_fits raw m h 0 (by omega)).typed b).1 x hx hr
  rw [e1] at f1
  simp only [Prod.mk.injEq, Res.ok.injEq] at f1
  rw [← f2, ← f1.2]; exact e2

/-- **C109**, one more: what one forwarder has sent, every later one with a buffer of that size or more sends on octet by octet -/
theorem c109_settled (raw : List UInt8) (m : Response) (h : Response.from_wire raw = .ok m) (b b' out : List UInt8)
    (hb : b.length ≤ b'.length) (hb' : b'.length ≤ 65535) (ho : hop raw b = some out) : hop out b' = some out := by
  rcases (hop_iff h out).mp ho with ⟨x, a, c, rfl⟩ | ⟨a, c, rfl⟩
  · exact (hop_iff (written_decodes h (by omega) a c) _).mpr (Or.inl ⟨x, a, by omega, rfl⟩)
  · exact hop_cut (c76_fits raw m h 0 (by omega)) (by omega)

/-- the buffers that never panic -/
theorem safe_size {raw : List UInt8} {m : Response} (h : Response.from_wire raw = .ok m) : m.headSize + m.firstPiece .table ≤ 526 := by
  have ht : m.Typed := (c76_fits raw m h 0 (by omega)).typed
  have hh : m.headSize ≤ 271 := by
    obtain ⟨ls, hv, hq⟩ := ht.question
    unfold Response.headSize
    have : m.question.name.raw.length ≤ 255 := by rw [hq, Name.ofLabels_raw, ← nameWire_eq]; exact hv.2
    omega
  by_cases hr : m.records = []
  · have : m.firstPiece .table = 0 := by unfold Response.firstPiece; rw [hr]
    omega
  · have h1 := c46_safe_sizes m ht (List.replicate (m.headSize + 255) 0) (Or.inr (by rw [List.length_replicate]; omega))
    rw [Ne, c46_panic_iff m ht, List.length_replicate] at h1
    by_cases c : m.headSize + 255 < m.headSize + m.firstPiece .table
    · exact absurd ⟨hr, by omega, c⟩ h1
    · omega

theorem hops_cut {L : Nat} {m : Response} (hm : m.FitsIn L) (bs : List (List UInt8)) (hb : ∀ b ∈ bs, m.headSize ≤ b.length) :
    hops bs (m.cut.encodedBy .table) = some (m.cut.encodedBy .table) := by
  induction bs with
  | nil => rfl
  | cons b bs ih =>
    unfold hops
    rw [hop_cut hm (hb b (by simp))]
    exact ih fun b h => hb b (by simp [h])

/-- what a chain sends, exactly -/
theorem hops_eq {raw : List UInt8} {m : Response} (h : Response.from_wire raw = .ok m) (b : List UInt8) (bs : List (List UInt8))
    (hb : ∀ b' ∈ b :: bs, 526 ≤ b'.length ∧ b'.length ≤ 65535) :
    (∃ x, m.written = some x ∧ (∀ b' ∈ b :: bs, x.room ≤ b'.length) ∧ hops (b :: bs) raw = some x.octets) ∨
      ((∃ b' ∈ b :: bs, ∀ x, m.written = some x → b'.length < x.room) ∧ hops (b :: bs) raw = some (m.cut.encodedBy .table)) := by
  have hs := safe_size h
  have hm := c76_fits raw m h 0 (by omega)
  have h0 := hb b (by simp)
  induction bs generalizing raw b with
  | nil =>
    have hcases : (∃ x, m.written = some x ∧ x.room ≤ b.length) ∨ ∀ x, m.written = some x → b.length < x.room := by
      rcases Classical.em (∃ x, m.written = some x ∧ x.room ≤ b.length) with c | c
      · exact Or.inl c
      · exact Or.inr fun x a => by
          by_cases c2 : x.room ≤ b.length
          · exact absurd ⟨x, a, c2⟩ c
          · omega
    rcases hcases with ⟨x, a, c⟩ | c
    · refine Or.inl ⟨x, a, by simpa using c, ?_⟩
      unfold hops; rw [(hop_iff h _).mpr (Or.inl ⟨x, a, c, rfl⟩)]; rfl
    · refine Or.inr ⟨⟨b, by simp, c⟩, ?_⟩
      unfold hops; rw [(hop_iff h _).mpr (Or.inr ⟨c, by omega, rfl⟩)]; rfl
  | cons b2 bs ih =>
    rcases Classical.em (∃ x, m.written = some x ∧ x.room ≤ b.length) with ⟨x, a, c⟩ | c
    · have hd := written_decodes h h0.2 a c
      unfold hops
      rw [(hop_iff h _).mpr (Or.inl ⟨x, a, c, rfl⟩)]
      rcases ih hd b2 (fun b' hb' => hb b' (by simp only [List.mem_cons] at hb' ⊢; exact Or.inr hb')) (hb b2 (by simp)) with
        ⟨y, k1, k2, k3⟩ | ⟨⟨b', k1, k2⟩, k3⟩
      · obtain rfl := Option.some.inj (a.symm.trans k1)
        refine Or.inl ⟨x, a, ?_, k3⟩
        intro b' hb'
        rcases List.mem_cons.mp hb' with rfl | hb'
        · exact c
        · exact k2 b' hb'
      · exact Or.inr ⟨⟨b', List.mem_cons_of_mem _ k1, k2⟩, k3⟩
    · have c' : ∀ x, m.written = some x → b.length < x.room := fun x a => by
        by_cases c2 : x.room ≤ b.length
        · exact absurd ⟨x, a, c2⟩ c
        · omega
      refine Or.inr ⟨⟨b, by simp, c'⟩, ?_⟩
      unfold hops
      rw [(hop_iff h _).mpr (Or.inr ⟨c', by omega, rfl⟩)]
      refine hops_cut hm _ fun b' hb' => ?_
      have := hb b' (List.mem_cons_of_mem _ hb'); omega

/-- **C109**: a message that goes through any number of forwarders, with buffers of 526 to 65535 octets, arrives as it was or
truncated, in the octets that a single forwarder with the smallest of these buffers would have sent -/
theorem c109_hops (raw : List UInt8) (m : Response) (h : Response.from_wire raw = .ok m) (bs : List (List UInt8)) (hne : bs ≠ [])
    (hb : ∀ b ∈ bs, 526 ≤ b.length ∧ b.length ≤ 65535) :
    ∃ out, hops bs raw = some out ∧ (Response.from_wire out = .ok m ∨ Response.from_wire out = .ok m.cut) ∧
      ∀ b ∈ bs, (∀ b' ∈ bs, b.length ≤ b'.length) → hop raw b = some out := by
  have hs := safe_size h
  have hm := c76_fits raw m h 0 (by omega)
  cases bs with
  | nil => exact absurd rfl hne
  | cons b bs =>
    rcases hops_eq h b bs hb with ⟨x, k1, k2, k3⟩ | ⟨⟨b', k1, k2⟩, k3⟩
    · refine ⟨_, k3, Or.inl (written_decodes h (hb b (by simp)).2 k1 (k2 b (by simp))), fun c hc _ => ?_⟩
      exact (hop_iff h _).mpr (Or.inl ⟨x, k1, k2 c hc, rfl⟩)
    · refine ⟨_, k3, Or.inr (cut_decodes hm), fun c hc hmin => ?_⟩
      refine (hop_iff h _).mpr (Or.inr ⟨fun x a => ?_, ?_, rfl⟩)
      · have := k2 x a; have := hmin b' k1; omega
      · have := hb c hc; omega

/-- so the order of the buffers does not matter, nor does it matter how often each occurs -/
theorem c109_order (raw : List UInt8) (m : Response) (h : Response.from_wire raw = .ok m) (bs cs : List (List UInt8))
    (hne : bs ≠ []) (hb : ∀ b ∈ bs, 526 ≤ b.length ∧ b.length ≤ 65535) (hsame : ∀ b, b ∈ bs ↔ b ∈ cs) : hops bs raw = hops cs raw := by
  have hne' : cs ≠ [] := by
    intro e; subst e
    cases bs with
    | nil => exact hne rfl
    | cons b bs => have := (hsame b).mp (by simp); simp at this
  obtain ⟨o1, e1, _, e2⟩ := c109_hops raw m h bs hne hb
  obtain ⟨o2, f1, _, f2⟩ := c109_hops raw m h cs hne' fun b hc => hb b ((hsame b).mpr hc)
  have hmin : ∀ bs : List (List UInt8), bs ≠ [] → ∃ b ∈ bs, ∀ b' ∈ bs, b.length ≤ b'.length := by
    intro bs
    induction bs with
    | nil => intro h; exact absurd rfl h
    | cons b bs ih =>
      intro _
      by_cases hbs : bs = []
      · subst hbs; exact ⟨b, by simp, by simp⟩
      · obtain ⟨c, c1, c2⟩ := ih hbs
        by_cases hle : b.length ≤ c.length
        · refine ⟨b, by simp, fun b' hb' => ?_⟩
          rcases List.mem_cons.mp hb' with rfl | hb'
          · exact Nat.le_refl _
          · have := c2 b' hb'; omega
        · refine ⟨c, by simp [c1], fun b' hb' => ?_⟩
          rcases List.mem_cons.mp hb' with rfl | hb'
          · omega
          · exact c2 b' hb'
  obtain ⟨b, b1, b2⟩ := hmin bs hne
  have := e2 b b1 b2
  rw [f2 b ((hsame b).mp b1) fun b' hb' => b2 b' ((hsame b').mpr hb')] at this
  rw [e1, f1, this]

/-! ## samples -/

/-- a message with stray octets behind it, and a chain of three: the octets of the first are those of the last -/
theorem c109_example : Response.from_wire spelledOctets = .ok spelledMsg ∧
    ∃ out, hops [List.replicate 600 0, List.replicate 526 255, List.replicate 4096 7] spelledOctets = some out ∧
      hop spelledOctets (List.replicate 526 255) = some out := by
  have h := (c75_message spelledOctets spelledMsg).mpr spelledMsg_at
  refine ⟨h, ?_⟩
  have hb : ∀ b ∈ [List.replicate 600 (0 : UInt8), List.replicate 526 255, List.replicate 4096 7], 526 ≤ b.length ∧ b.length ≤ 65535 := by
    intro b hb
    simp only [List.mem_cons, List.not_mem_nil, or_false] at hb
    rcases hb with rfl | rfl | rfl <;> rw [List.length_replicate] <;> omega
  obtain ⟨out, k1, _, k3⟩ := c109_hops _ _ h [List.replicate 600 0, List.replicate 526 255, List.replicate 4096 7] (List.cons_ne_nil _ _) hb
  refine ⟨out, k1, k3 _ (List.mem_cons_of_mem _ List.mem_cons_self) fun b' hb' => ?_⟩
  have := hb b' hb'
  rw [List.length_replicate]; omega

/-- without the lower bound: false, after a forwarder that truncated, a buffer that would have panicked sends the truncated message -/
theorem c109_small_violated : ∃ raw m, Response.from_wire raw = .ok m ∧ ∃ b b' out, b'.length < b.length ∧ hops [b, b'] raw = some out ∧ hop raw b' = none := by
  obtain ⟨raw, h⟩ := c76_image sampleMsg sampleMsg_fits
  have hm := c76_fits raw sampleMsg h 0 (by omega)
  have hp := (c46_panic_iff sampleMsg hm.typed (List.replicate 19 0)).mp (by decide +kernel)
  have hw : (sampleMsg.written.map fun x => x.room) = some 35 := by decide +kernel
  have h30 : hop raw (List.replicate 30 0) = some (sampleMsg.cut.encodedBy .table) := by
    refine (hop_iff h _).mpr (Or.inr ⟨fun x a => ?_, by decide +kernel, rfl⟩)
    rw [a] at hw
    simp only [Option.map_some, Option.some.injEq] at hw
    rw [List.length_replicate]; omega
  refine ⟨raw, sampleMsg, h, List.replicate 30 0, List.replicate 19 0, sampleMsg.cut.encodedBy .table, by simp, ?_, ?_⟩
  · unfold hops
    rw [h30]
    show hops [List.replicate 19 0] _ = _
    exact hops_cut hm _ fun b hb => by
      simp only [List.mem_cons, List.not_mem_nil, or_false] at hb
      subst hb; decide +kernel
  · cases e : hop raw (List.replicate 19 0) with
    | none => rfl
    | some out =>
      rcases (hop_iff h out).mp e with ⟨x, a, c, _⟩ | ⟨_, c, _⟩
      · rw [a] at hw
        simp only [Option.map_some, Option.some.injEq] at hw
        rw [List.length_replicate] at c; omega
      · omega

end R53
