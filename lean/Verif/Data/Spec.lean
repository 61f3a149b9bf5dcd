import Verif.Data.Matrix
/-!
# What a dataset means: labelled samples

A dataset is a table of samples.  Each sample has its label and, for every feature and every
objective, the label of the variable together with its value in this sample.
-/
namespace Mbtk.Dataset.Spec

/-- One sample of the dataset. (Specification.) -/
structure Sample where
  label : Str
  features : List (Str × Int)
  objectives : List (Str × Int)
  deriving DecidableEq, Repr

/-- A dataset as a table of labelled samples. (Specification.) -/
structure Table where
  features : List Str
  objectives : List Str
  samples : List Sample
  deriving DecidableEq, Repr

/-- The table that a `DatasetMatrix` stores. (Specification.) -/
def table (d : DM) : Table where
  features := d.colLabelsX
  objectives := d.colLabelsY
  samples := (d.rowLabels.zip (d.X.rows.zip d.Y.rows)).map
    (fun p => ⟨p.1, d.colLabelsX.zip p.2.1, d.colLabelsY.zip p.2.2⟩)

/-- The numbers of labels are the numbers of rows and columns; both matrices have the same
storage format. (Specification.) -/
structure WellShaped (d : DM) : Prop where
  rowsX : d.X.rows.length = d.rowLabels.length
  rowsY : d.Y.rows.length = d.rowLabels.length
  colsX : d.X.ncols = d.colLabelsX.length
  colsY : d.Y.ncols = d.colLabelsY.length
  rectX : ∀ row ∈ d.X.rows, row.length = d.X.ncols
  rectY : ∀ row ∈ d.Y.rows, row.length = d.Y.ncols
  storage : d.X.format = d.Y.format

/-- The elements of `l` at the positions `ps`, in the order of `ps`. (Specification.) -/
def elementsAt {α : Type} (l : List α) (ps : List Nat) : List α := ps.filterMap (fun p => l[p]?)

/-- The elements of `l` at all positions except `ps`. (Specification.) -/
def dropAt {α : Type} (l : List α) (ps : List Nat) : List α :=
  elementsAt l ((List.range l.length).filter (fun p => p ∉ ps))

/-- Only the samples at the positions `ps`. (Specification.) -/
def keepSamples (ps : List Nat) (t : Table) : Table :=
  { t with samples := elementsAt t.samples ps }

/-- All samples but the one at position `p`. (Specification.) -/
def dropSample (p : Nat) (t : Table) : Table := { t with samples := t.samples.eraseIdx p }

/-- All features but those at the positions `ps`. (Specification.) -/
def dropFeatures (ps : List Nat) (t : Table) : Table :=
  { t with features := dropAt t.features ps,
           samples := t.samples.map (fun s => { s with features := dropAt s.features ps }) }

/-- All objectives but those at the positions `ps`. (Specification.) -/
def dropObjectives (ps : List Nat) (t : Table) : Table :=
  { t with objectives := dropAt t.objectives ps,
           samples := t.samples.map (fun s => { s with objectives := dropAt s.objectives ps }) }

/-- Only the features at the positions `ps`. (Specification.) -/
def keepFeatures (ps : List Nat) (t : Table) : Table :=
  { t with features := elementsAt t.features ps,
           samples := t.samples.map (fun s => { s with features := elementsAt s.features ps }) }

/-- Python's reading of an index into a sequence of length `n`: `0, 1, …, n-1` from the start,
`-1, …, -n` from the end. (Specification.) -/
def IndexMeans (n : Nat) (i : Int) (p : Nat) : Prop := p < n ∧ (i = p ∨ i = (p : Int) - n)

end Mbtk.Dataset.Spec
