import Verif.Props.Chains
import Verif.Props.TextExact
/-!
# C117: a server restarted from what it printed
-/
namespace R53
open Name (ofLabels)

/-- the lines of the printed set -/
def PrintedAs (s : RRset) (lines : List (List UInt8)) : Prop := s.to_string stdExt = .ok (lines.flatMap (· ++ [10])) ∧ ∀ l ∈ lines, 10 ∉ l

theorem printed_lines (m : Build) (s : RRset) (h : s.Printable) (ho : s.typ ≠ .OPT) : ∃ lines, PrintedAs s lines ∧ RRset.from_strs stdExt m lines = .ok s := by
  obtain ⟨lines, h1, h2, _, _, h3⟩ := c70_std_partial m s h
  exact ⟨lines, ⟨h1, h2⟩, h3 (.inr ho)⟩

theorem load_eq_keep (m : Build) : ∀ (groups : List (List (List UInt8))) (S : List RRset), groups.map (RRset.from_strs stdExt m) = S.map Res.ok → ∀ tree, Server.load m groups tree = Server.keep m S tree
  | [], [], _, _ => rfl
  | [], _ :: _, h, _ => by simp at h
  | _ :: _, [], h, _ => by simp at h
  | g :: gs, s :: S, h, tree => by
    simp only [List.map_cons, List.cons.injEq] at h
    unfold Server.load Server.keep
    rw [St.lift_ok_bind h.1]
    have ih : Server.load m gs = Server.keep m S := funext (load_eq_keep m gs S h.2)
    rw [ih]

theorem keep_append (m : Build) (a b : List RRset) : Server.keep m (a ++ b) = (Server.keep m a >>= fun _ => Server.keep m b) := by
  have assoc : ∀ {σ α β γ : Type} (x : St σ α) (f : α → St σ β) (k : β → St σ γ), ((x >>= f) >>= k) = (x >>= fun a => f a >>= k) := fun x f k => funext fun s => St.bind_assoc' x f k s
  induction a with
  | nil => rfl
  | cons s a ih =>
    rw [List.cons_append]
    rw [Server.keep.eq_2, Server.keep.eq_2]
    simp only [assoc, ih]

theorem learn_eq_keep (m : Build) : ∀ (raws : List (List UInt8)) (msgs : List Response), raws.map Response.from_wire = msgs.map Res.ok → Server.learn m raws = Server.keep m (msgs.flatMap Server.told)
  | [], [], _ => rfl
  | [], _ :: _, h => by simp at h
  | _ :: _, [], h => by simp at h
  | raw :: raws, msg :: msgs, h => by
    simp only [List.map_cons, List.cons.injEq] at h
    rw [List.flatMap_cons, keep_append, ← learn_eq_keep m raws msgs h.2]
    funext tree
    rw [Server.learn.eq_2, St.lift_ok_bind h.1]

theorem printed_all (m : Build) : ∀ (S : List RRset), (∀ s ∈ S, s.Printable ∧ s.typ ≠ .OPT) →
    ∃ groups, List.Forall₂ PrintedAs S groups ∧ groups.map (RRset.from_strs stdExt m) = S.map Res.ok
  | [], _ => ⟨[], .nil, rfl⟩
  | s :: S, h => by
    obtain ⟨g, h1, h2⟩ := printed_lines m s (h s List.mem_cons_self).1 (h s List.mem_cons_self).2
    obtain ⟨gs, h3, h4⟩ := printed_all m S fun s hs => h s (List.mem_cons_of_mem _ hs)
    exact ⟨g :: gs, .cons h1 h3, by rw [List.map_cons, List.map_cons, h2, h4]⟩

/-- lines are the only way to cut a text at its line ends -/
theorem lines_unique : ∀ (a b : List (List UInt8)), (∀ l ∈ a, (10 : UInt8) ∉ l) → (∀ l ∈ b, (10 : UInt8) ∉ l) → a.flatMap (· ++ [10]) = b.flatMap (· ++ [10]) → a = b
  | [], [], _, _, _ => rfl
  | [], l :: b, _, _, h => by simp at h
  | l :: a, [], _, _, h => by simp at h
  | l :: a, k :: b, ha, hb, h => by
    simp only [List.flatMap_cons, List.append_assoc, List.singleton_append] at h
    have key : ∀ (l k x y : List UInt8), (10 : UInt8) ∉ l → (10 : UInt8) ∉ k → l ++ 10 :: x = k ++ 10 :: y → l = k ∧ x = y := by
      intro l
      induction l with
      | nil =>
        intro k x y _ hk h
        cases k with
        | nil => simpa using h
        | cons c k => simp only [List.nil_append, List.cons_append, List.cons.injEq] at h; exact absurd (h.1 ▸ List.mem_cons_self) hk
      | cons c l ih =>
        intro k x y hl hk h
        cases k with
        | nil => simp only [List.nil_append, List.cons_append, List.cons.injEq] at h; exact absurd (h.1 ▸ List.mem_cons_self) hl
        | cons d k =>
          simp only [List.cons_append, List.cons.injEq] at h
          obtain ⟨h1, h2⟩ := ih k x y (fun hx => hl (List.mem_cons_of_mem _ hx)) (fun hx => hk (List.mem_cons_of_mem _ hx)) h.2
          exact ⟨by rw [h.1, h1], h2⟩
    obtain ⟨h1, h2⟩ := key l k _ _ (ha l List.mem_cons_self) (hb k List.mem_cons_self) h
    rw [h1, lines_unique a b (fun l h => ha l (List.mem_cons_of_mem _ h)) (fun l h => hb l (List.mem_cons_of_mem _ h)) h2]

theorem printed_unique : ∀ (S : List RRset) (a b : List (List (List UInt8))), List.Forall₂ PrintedAs S a → List.Forall₂ PrintedAs S b → a = b
  | _, _, _, .nil, .nil => rfl
  | _, _, _, .cons h1 h2, .cons h3 h4 => by
    rw [printed_unique _ _ _ h2 h4, lines_unique _ _ h1.2 h3.2 (Res.ok.inj (h1.1.symm.trans h3.1))]

/-- **C117**. A server has learnt from any octets received that decode as responses, whoever made them; the record sets they told of are printable (Spec/Text: exactly the ones that are read back, C70).
The sets are printed, each set's text cut at its line ends, and the lines read by a server that is started new, in any state that the first one began with, in either build: the result is the very same
state. So every later answer, change and lookup is the same -/
theorem c117_restart_partial (m : Build) (raws : List (List UInt8)) (msgs : List Response) (hd : raws.map Response.from_wire = msgs.map Res.ok)
    (hp : ∀ msg ∈ msgs, ∀ s ∈ Server.told msg, s.Printable) :
    (∃ groups, List.Forall₂ PrintedAs (msgs.flatMap Server.told) groups) ∧
      ∀ groups, List.Forall₂ PrintedAs (msgs.flatMap Server.told) groups → ∀ tree, Server.load m groups tree = Server.learn m raws tree := by
  obtain ⟨groups, h1, h2⟩ := printed_all m (msgs.flatMap Server.told) fun s hs => by
    obtain ⟨msg, hm, hs⟩ := List.mem_flatMap.1 hs
    exact ⟨hp msg hm s hs, by simpa using (List.mem_filter.1 hs).2⟩
  refine ⟨⟨groups, h1⟩, fun groups' h tree => ?_⟩
  rw [printed_unique _ _ _ h h1, load_eq_keep m groups _ h2, learn_eq_keep m raws msgs hd]

/-- the same for a zone: loaded from text, printed, and loaded from what was printed -/
theorem c117_zone_partial (m : Build) (groups : List (List (List UInt8))) (sets : List RRset) (hg : groups.map (RRset.from_strs stdExt m) = sets.map Res.ok)
    (hp : ∀ s ∈ sets, s.Printable ∧ s.typ ≠ .OPT) :
    (∃ printed, List.Forall₂ PrintedAs sets printed) ∧ ∀ printed, List.Forall₂ PrintedAs sets printed → ∀ tree, Server.load m printed tree = Server.load m groups tree := by
  obtain ⟨p, h1, h2⟩ := printed_all m sets hp
  refine ⟨⟨p, h1⟩, fun p' h tree => ?_⟩
  rw [printed_unique _ _ _ h h1, load_eq_keep m p _ h2, load_eq_keep m groups _ hg]

namespace RestartSample
theorem plain_a : PlainName (ofLabels [[97]]) := ⟨[[97]], by decide, rfl, by decide⟩
theorem plain_ba : PlainName (ofLabels [[98], [97]]) := ⟨[[98], [97]], by decide, rfl, by decide⟩

theorem address : RRset.Printable ⟨ofLabels [[97]], .A, .IN, 60, [⟨.A, [.ip [1, 2, 3, 4]]⟩]⟩ :=
  ⟨plain_a, (fun v h => nomatch h), by decide, by simp, fun rd h => by rw [List.mem_singleton.1 h]; exact ⟨rfl, _, rfl, rfl, trivial⟩⟩

theorem mail : RRset.Printable ⟨ofLabels [[97]], .MX, .IN, 60, [⟨.MX, [.u16 10, .name (ofLabels [[98], [97]])]⟩]⟩ :=
  ⟨plain_a, (fun v h => nomatch h), by decide, by simp, fun rd h => by rw [List.mem_singleton.1 h]; exact ⟨rfl, _, rfl, trivial, plain_ba, trivial⟩⟩
end RestartSample

/-- a resolver has received a compressed response with a mail exchange and one with an address: what it prints, read by a new one, gives the same tree -/
theorem c117_example : ∃ raw, [spelledOctets, raw].map Response.from_wire = [spelledMsg, sampleMsg].map Res.ok ∧
    ∀ tree, Server.load .debug [[ascii "a.\t60\tIN\tMX\t10 b.a."], [ascii "a.\t60\tIN\tA\t1.2.3.4"]] tree = Server.learn .debug [spelledOctets, raw] tree := by
  obtain ⟨raw, h⟩ := c76_image sampleMsg sampleMsg_fits
  have hd : [spelledOctets, raw].map Response.from_wire = [spelledMsg, sampleMsg].map Res.ok := by
    simp only [List.map_cons, List.map_nil, h, (c75_message spelledOctets spelledMsg).mpr spelledMsg_at]
  refine ⟨raw, hd, (c117_restart_partial .debug _ _ hd fun msg hm s hs => ?_).2 _ ?_⟩
  · rcases List.mem_cons.1 hm with rfl | hm
    · have : s ∈ [(⟨ofLabels [[97]], .MX, .IN, 60, [⟨.MX, [.u16 10, .name (ofLabels [[98], [97]])]⟩]⟩ : RRset)] := hs
      rw [List.mem_singleton.1 this]; exact RestartSample.mail
    · rw [List.mem_singleton.1 hm] at hs
      have : s ∈ [(⟨ofLabels [[97]], .A, .IN, 60, [⟨.A, [.ip [1, 2, 3, 4]]⟩]⟩ : RRset)] := hs
      rw [List.mem_singleton.1 this]; exact RestartSample.address
  · refine .cons ?_ (.cons ?_ .nil) <;> unfold PrintedAs <;> decide +kernel

/-- a record that is not printable is lost: the text of a CERT record is refused -/
theorem c117_violated : let r : RRset := ⟨ofLabels [[97]], .CERT, .IN, 1, [⟨.CERT, [.u16 1, .u16 2, .u8 3, .bytes (ascii "foo")]⟩]⟩
    PrintedAs r [ascii "a.\t1\tIN\tURI\t1 2 3 Zm9v"] ∧ (Server.load .release [[ascii "a.\t1\tIN\tURI\t1 2 3 Zm9v"]] Dom.new).1 = .err ∧ (Server.keep .release [r] Dom.new).1 = .ok () := by
  unfold PrintedAs
  refine ⟨by decide +kernel, by decide +kernel, by decide +kernel⟩

end R53
