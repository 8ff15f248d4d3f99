import Verif.Proofs.Render5
import Verif.Spec.Size
/-!
# A message that fits without compression is written whole
-/
namespace R53
open Name (ofLabels)

theorem tails_ofLabels {ls : List Label} {i : Nat} (hi : i < ls.length) : nameWire (ls.drop i) ∈ (ofLabels ls).tails := by
  unfold Name.tails
  rw [Name.ofLabels_count, Name.ofLabels_offsets, Name.ofLabels_raw, Nat.add_sub_cancel, List.mem_map]
  have hg := starts_getElem? 0 (ls ++ [[]]) i (by simp; omega)
  refine ⟨0 + (wire ((ls ++ [([] : Label)]).take i)).length, ?_, ?_⟩
  · rw [List.mem_iff_getElem?]
    refine ⟨i, ?_⟩
    rw [List.getElem?_take_of_lt hi, hg]
  · rw [Nat.zero_add, wire_drop, nameWire_eq, List.drop_append_of_le_length (by omega)]

/-- the names whose octets are in the list -/
def TailSet (ns : List Name) (ls : List Label) : Prop := nameWire ls ∈ ns.flatMap Name.tails ∧ ∀ l ∈ ls, ValidLabel l

theorem ClashFree.noClash {ns : List Name} (h : ClashFree ns) : NoClash (TailSet ns) := fun a b ha hb h1 h2 =>
  Render.nameWire_inj ha.2 hb.2 (h _ ha.1 _ hb.1 h1 h2)

theorem inS_of_mem {ns : List Name} {n : Name} (hw : n.WF) (hm : n ∈ ns) : InS (TailSet ns) n := by
  obtain ⟨ls, hv, rfl⟩ := hw
  refine ⟨ls, hv, rfl, fun i hi => ⟨List.mem_flatMap.mpr ⟨_, hm, tails_ofLabels hi⟩, fun l hl => hv.1 l (List.mem_of_mem_drop hl)⟩⟩

theorem fieldInS_of_mem {ns : List Name} {c : Codec} {v : FieldVal} (hv : FieldTyped c v) (hm : ∀ n ∈ v.names, n ∈ ns) : v.InS (TailSet ns) := by
  cases v with
  | name n =>
    cases c <;> simp only [FieldTyped] at hv
    exact inS_of_mem hv (hm n (by simp [FieldVal.names]))
  | _ => trivial

theorem fieldsInS_of_mem {ns : List Name} {cs : List (Codec × Disp)} {vs : List FieldVal} (hv : FieldsTyped cs vs)
    (hm : ∀ n ∈ vs.flatMap FieldVal.names, n ∈ ns) : ∀ v ∈ vs, v.InS (TailSet ns) := by
  induction cs generalizing vs with
  | nil =>
    cases vs with
    | nil => simp
    | cons v vs => simp [FieldsTyped] at hv
  | cons c cs ih =>
    cases vs with
    | nil => simp
    | cons v vs =>
      intro x hx
      rcases List.mem_cons.mp hx with rfl | hx
      · exact fieldInS_of_mem hv.1 fun n hn => hm n (by simp [hn])
      · exact ih hv.2 (fun n hn => hm n (by rw [List.flatMap_cons]; exact List.mem_append_right _ hn)) x hx

section
variable {ns : List Name} (hc : ClashFree ns)
include hc

theorem ready_rr {s : RRset} (hn : s.name.WF) (hnm : s.name ∈ ns) {rd : RData} (h : rd.Typed) (h1 : 1 ≤ rd.size)
    (hm : ∀ n ∈ rd.fields.flatMap FieldVal.names, n ∈ ns) : Ready (TailSet ns) (s.rr_to_wire rd) (s.name.raw.length + 10 + rd.size) := by
  have hr : Ready (TailSet ns) rd.to_wire rd.size := ready_rdata hc.noClash h (by
    obtain ⟨cs, _, hf⟩ := h; exact fieldsInS_of_mem hf hm)
  exact ((ready_name hc.noClash (inS_of_mem hn hnm) true).seq ((Ready.u16 _).seq ((Ready.u16 _).seq ((Ready.u32 _).seq (ready_rdlen hr h1))))).mono
    (by omega)

theorem ready_rrs {s : RRset} (hn : s.name.WF) (hnm : s.name ∈ ns) (rds : List RData) (h : ∀ rd ∈ rds, rd.Typed ∧ 1 ≤ rd.size)
    (hm : ∀ n ∈ rds.flatMap (fun rd => rd.fields.flatMap FieldVal.names), n ∈ ns) :
    Ready (TailSet ns) (s.rrs_to_wire rds) (rds.map fun rd => s.name.raw.length + 10 + rd.size).sum := by
  induction rds with
  | nil => exact Ready.nil
  | cons rd rds ih =>
    rw [List.map_cons, List.sum_cons]
    exact (ready_rr hc hn hnm (h rd (by simp)).1 (h rd (by simp)).2 fun n hx => hm n (by rw [List.flatMap_cons]; exact List.mem_append_left _ hx)).seq
      (ih (fun x hx => h x (by simp [hx])) fun n hx => hm n (by rw [List.flatMap_cons]; exact List.mem_append_right _ hx))

theorem ready_rrset {s : RRset} (h : s.Typed) (h1 : ∀ rd ∈ s.rdatas, 1 ≤ rd.size) (hm : ∀ n ∈ s.names, n ∈ ns) :
    Ready (TailSet ns) s.to_wire s.size := by
  unfold RRset.to_wire RRset.size
  have hn := hm s.name (by simp [RRset.names])
  split
  · exact ((ready_name hc.noClash (inS_of_mem h.1 hn) true).seq ((Ready.u16 _).seq ((Ready.u16 _).seq ((Ready.u32 _).seq (Ready.u16 0))))).mono (by omega)
  · exact ready_rrs hc h.1 hn _ (fun rd hr => ⟨h.2 rd hr, h1 rd hr⟩) fun n hx => hm n (List.mem_cons_of_mem _ hx)

theorem ready_sets (sets : List RRset) (h : ∀ s ∈ sets, s.Typed ∧ ∀ rd ∈ s.rdatas, 1 ≤ rd.size) (hm : ∀ n ∈ sets.flatMap RRset.names, n ∈ ns) :
    Ready (TailSet ns) (Section.toLoop sets) (sets.map RRset.size).sum := by
  induction sets with
  | nil => exact Ready.nil
  | cons s sets ih =>
    rw [List.map_cons, List.sum_cons]
    exact (ready_rrset hc (h s (by simp)).1 (h s (by simp)).2 fun n hx => hm n (by rw [List.flatMap_cons]; exact List.mem_append_left _ hx)).seq
      (ih (fun x hx => h x (by simp [hx])) fun n hx => hm n (by rw [List.flatMap_cons]; exact List.mem_append_right _ hx))

theorem ready_section {s : Section} (h : ∀ sets, s = some sets → ∀ x ∈ sets, x.Typed ∧ ∀ rd ∈ x.rdatas, 1 ≤ rd.size)
    (hm : ∀ n ∈ Section.names s, n ∈ ns) : Ready (TailSet ns) (Section.to_wire s) (Section.size s) := by
  match s with
  | none => exact Ready.nil
  | some sets => exact ready_sets hc sets (h sets rfl) hm

theorem ready_question {q : Question} (h : q.name.WF) (hm : q.name ∈ ns) : Ready (TailSet ns) q.to_wire (q.name.raw.length + 4) :=
  ((ready_name hc.noClash (inS_of_mem h hm) true).seq ((Ready.u16 _).seq (Ready.u16 _))).mono (by omega)

end

theorem ready_body {m : Response} (hm : m.Typed) (h1 : m.NoEmptyData) (hc : ClashFree m.names) :
    Ready (TailSet m.names) m.body (Section.size m.answer + (Section.size m.authority + Section.size m.additional)) := by
  have hs : ∀ t, (∀ n ∈ Section.names (m.section_ t), n ∈ m.names) → Ready (TailSet m.names) (Section.to_wire (m.section_ t)) (Section.size (m.section_ t)) := fun t hn =>
    ready_section hc (fun sets h x hx => ⟨hm.sections t sets h x hx, h1 t sets h x hx⟩) hn
  exact (hs .Answer fun n hn => by simp only [Response.section_] at hn; simp [Response.names, hn]).seq
    ((hs .Authority fun n hn => by simp only [Response.section_] at hn; simp [Response.names, hn]).seq
      (hs .Additional fun n hn => by simp only [Response.section_] at hn; simp [Response.names, hn]))

theorem Response.to_wire_eq (m : Response) (r0 r1 r2 r3 : Render) (h1 : m.header.to_wire r0 = (.ok (), r1)) (h2 : m.question.to_wire r1 = (.ok (), r2))
    (h3 : m.body r2 = (.ok (), r3)) : m.to_wire r0 = (.ok r3.len, r3) := by
  unfold Response.to_wire
  rw [St.bind_ok h1, St.bind_ok h2, St.get_bind, sectionsLoop_eq, h3]

/-- with room for the uncompressed message, everything is written -/
theorem to_wire_room {m : Response} (hm : m.Typed) (h1 : m.NoEmptyData) (hc : ClashFree m.names) (backing : List UInt8) (hfit : m.size ≤ backing.length) :
    ∃ r0 r1 r2 r3, r0 = Render.new backing ∧ m.header.to_wire r0 = (.ok (), r1) ∧ m.question.to_wire r1 = (.ok (), r2) ∧ m.body r2 = (.ok (), r3) ∧
      r3.len ≤ m.size := by
  have hcap : (Render.new backing).buffer.capacity = backing.length := by simp [Render.new, OutBuf.new, OutBuf.capacity]
  have hr0 : RInv (Render.new backing) Mem.none := RInv.new _ _ fun _ => rfl
  have ht0 : Tagged (TailSet m.names) (Render.new backing) Mem.none := Tagged.new _ _ _
  have hl0 : (Render.new backing).buffer.len = 0 := rfl
  generalize Render.new backing = r0 at *
  unfold Response.size Response.headSize at hfit ⊢
  have hrd : Ready (TailSet m.names) m.header.to_wire 12 :=
    (Ready.u16 _).seq ((Ready.u16 _).seq ((Ready.u16 _).seq ((Ready.u16 _).seq ((Ready.u16 _).seq (Ready.u16 _)))))
  obtain ⟨r1, o1, a1, a2, a3, a4⟩ := hrd r0 _ hr0 ht0 (by omega)
  obtain ⟨r2, o2, b1, b2, b3, b4⟩ := ready_question hc hm.question (by simp [Response.names]) r1 _ a2.inv a3 (by rw [a2.len, a2.cap]; omega)
  obtain ⟨r3, o3, c1, c2, c3, c4⟩ := ready_body hm h1 hc r2 _ b2.inv b3 (by rw [b2.len, b2.cap, a2.len, a2.cap]; omega)
  refine ⟨r0, r1, r2, r3, rfl, a1, b1, c1, ?_⟩
  show r3.buffer.len ≤ _
  rw [c2.len, b2.len, a2.len]; omega

end R53
