import Mathlib.Data.Real.Basic

/-!
Model of the cache of the station fits, ggmp.py:1781-1987.

Simplifications: exact reals. The fit of one series (quantile start and `fit_gmm_fixed_weights`, C113) is a function of the fit
parameters and the series, `none` when it raises. The cache directory is a function from paths to files; a missing or unreadable
file is `none`. The hash of the file name is an arbitrary function. `np.argsort` is an arbitrary sorting function. Writing is
atomic (`tmp.replace(path)`), and only one process uses the directory. Logging is left out.
-/

namespace Verif.Ggmp

/-- `meta`, ggmp.py:1791-1800 (without its constant entries). -/
structure CacheMeta where
  dataFile : String
  dataSize : ℕ
  dataMtime : ℕ
  K : ℕ
  maxIter : ℕ
  tol : ℝ

/-- One row of `means` and `vars`. -/
abbrev FitRow := List ℝ × List ℝ

/-- A file readable by `_load_gmm_cache`, ggmp.py:1807-1824: `meta`, the number of columns, and the rows with their station ids. -/
structure CacheFile where
  stamp : CacheMeta
  width : ℕ
  entries : List (ℤ × FitRow)

/-- What the model takes from outside. -/
structure CacheExt where
  /-- the path of `_gmm_cache_path`, ggmp.py:1801-1804 -/
  path : CacheMeta → String
  /-- the fit of one series, ggmp.py:1919-1928 -/
  fit : CacheMeta → List ℝ → Option FitRow
  /-- `all_ids[order]`, `all_means[order]`, `all_vars[order]` with `order = np.argsort(all_ids)`, ggmp.py:1975-1978 -/
  sort : List (ℤ × FitRow) → List (ℤ × FitRow)

/-- The cache directory. -/
abbrev Disk := String → Option CacheFile

/-- The row written by `np.zeros`, ggmp.py:1875-1876. -/
def zeroRow (K : ℕ) : FitRow := (List.replicate K 0, List.replicate K 0)

/-- `cache_map[sid]`, ggmp.py:1900: for repeated ids the last row. -/
def lookupLast (l : List (ℤ × FitRow)) (sid : ℤ) : Option FitRow := (l.reverse.find? fun e => e.1 = sid).map (·.2)

open Classical in
/-- `cached` and the rows behind `cache_map`, ggmp.py:1894-1903: a file with another `meta` gives an empty map but stays `cached`. -/
noncomputable def useCache (m : CacheMeta) : Option CacheFile → Option CacheFile × List (ℤ × FitRow)
  | none => (none, [])
  | some c => if c.stamp = m then (if c.width = m.K then (some c, c.entries) else (none, [])) else (some c, [])

/-- One station, ggmp.py:1912-1937: its row and what is added to the cache. -/
def stationFit (e : CacheExt) (m : CacheMeta) (known : List (ℤ × FitRow)) (sid : ℤ) (y : List ℝ) : FitRow × List (ℤ × FitRow) :=
  match lookupLast known sid with
  | some r => (r, [])
  | none =>
      match e.fit m y with
      | some r => (r, [(sid, r)])
      | none => (zeroRow m.K, [])

/-- `np.unique(all_ids, return_index=True)` on a sorted array, ggmp.py:1979-1982: the first row of each id; `prev` is the id before. -/
def uniqFirst : Option ℤ → List (ℤ × FitRow) → List (ℤ × FitRow)
  | _, [] => []
  | prev, a :: l => if some a.1 = prev then uniqFirst prev l else a :: uniqFirst (some a.1) l

/-- The file written at the end, ggmp.py:1956-1984; `.ok none`: nothing is written. `np.vstack` refuses rows of different length. -/
def mergeCache (e : CacheExt) (m : CacheMeta) (cached : Option CacheFile) (added : List (ℤ × FitRow)) : Except String (Option CacheFile) :=
  match cached with
  | none => if added = [] then .ok none else .ok (some ⟨m, m.K, uniqFirst none (e.sort added)⟩)
  | some c =>
      if added = [] then .ok (some ⟨m, c.width, uniqFirst none (e.sort c.entries)⟩)
      else if c.width ≠ m.K then .error "ValueError: all the input array dimensions except for the concatenation axis must match"
      else .ok (some ⟨m, m.K, uniqFirst none (e.sort (c.entries ++ added))⟩)

/-- `fit_station_gmms_fixed_weights_cached`, ggmp.py:1847-1987: the rows and the directory afterwards. -/
noncomputable def fitStations (e : CacheExt) (cache : Bool) (disk : Disk) (m : CacheMeta) (ids : List ℤ) (series : List (List ℝ)) :
    Except String (List FitRow) × Disk :=
  if series.length ≠ ids.length then (.error "ValueError: series_list and station_ids must have the same length", disk)
  else
    let start := if cache then useCache m (disk (e.path m)) else (none, [])
    let out := List.zipWith (stationFit e m start.2) ids series
    let rows := out.map (·.1)
    let added := (out.map (·.2)).flatten
    if cache then
      match mergeCache e m start.1 added with
      | .error s => (.error s, disk)
      | .ok none => (.ok rows, disk)
      | .ok (some f) => (.ok rows, fun p => if p = e.path m then some f else disk p)
    else (.ok rows, disk)

end Verif.Ggmp
