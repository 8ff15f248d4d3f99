import Verif.Spec.Message
/-!
# What the builder and the iterator should do, on lists
-/
namespace R53

/-- the sets of a section, none for an absent one -/
def Section.sets (s : Section) : List RRset := s.getD []

/-- `after` is `before` with the data of `s` appended to the first set of the same owner and type, or with `s` as a new last
set if there is no such set -/
def Added (before : List RRset) (s : RRset) (after : List RRset) : Prop :=
  (∃ pre old post, before = pre ++ old :: post ∧ (∀ x ∈ pre, ¬ x.SameOwner s) ∧ old.SameOwner s ∧
    after = pre ++ { old with rdatas := old.rdatas ++ s.rdatas } :: post) ∨
  ((∀ x ∈ before, ¬ x.SameOwner s) ∧ after = before ++ [s])

/-- several sets, one after the other -/
def AddedAll : List RRset → List RRset → List RRset → Prop
  | before, [], after => after = before
  | before, s :: ss, after => ∃ mid, Added before s mid ∧ AddedAll mid ss after

/-- no two sets of the same owner and type -/
def AllDistinct (sets : List RRset) : Prop := sets.Pairwise fun a b => ¬ a.SameOwner b

/-- every set of a message with its section, in section order -/
def Response.items (m : Response) : List (RRset × SectionType) :=
  m.answer.sets.map (·, .Answer) ++ m.authority.sets.map (·, .Authority) ++ m.additional.sets.map (·, .Additional)

/-- which end of an iterator is asked -/
inductive End where
  | front | back
deriving DecidableEq, Repr

/-- taking items from the two ends of a list: the answers, and what is left -/
def deque {α : Type} : List End → List α → List (Option α) × List α
  | [], l => ([], l)
  | .front :: ds, l => let (a, r) := deque ds l.tail; (l.head? :: a, r)
  | .back :: ds, l => let (a, r) := deque ds l.dropLast; (l.getLast? :: a, r)

/-- the answers given to one end, in order -/
def yielded {α : Type} (e : End) (ds : List End) (answers : List (Option α)) : List α :=
  ((ds.zip answers).filter (·.1 = e)).filterMap (·.2)

end R53
