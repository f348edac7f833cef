import Verif.Input.Validate

/-!
# The validator tests of the project, on the model

`/repo/tests/test_validate_input_database.cc`: `expected_passes`, `parse_test_input_files` and `expected_failures`, statement by
statement (the lists below were written by a script from the test and from the input files).  The model is run by the kernel
(`decide +kernel`).  Tests of the model, not proofs of properties.
-/

namespace Verif.Conformance
open Verif.Input

/-- Digits as a number. -/
def digitsOf : List Char → Option ℕ
  | [] => none
  | l => l.foldl (fun a c => a.bind fun n => if c.isDigit then some (10 * n + (c.toNat - 48)) else none) (some 0)

/-- The text before and after the first character with `p`. -/
def cut (p : Char → Bool) (l : List Char) : List Char × List Char := (l.takeWhile fun c => !p c, (l.dropWhile fun c => !p c).drop 1)

/-- A number with a decimal point. -/
def decimal (l : List Char) : Option ℚ :=
  let (a, b) := cut (· == '.') l
  match digitsOf (a ++ b) with
  | none => none
  | some n => some ((n : ℚ) / 10 ^ b.length)

/-- A number with an exponent. -/
def real (s : String) : Option ℚ :=
  let (m, e) := cut (fun c => c == 'e' || c == 'E') s.toList
  let (neg, m) := match m with
    | '-' :: m => (true, m)
    | m => (false, m)
  (decimal m).bind fun x =>
    let x := if neg then -x else x
    match e with
    | [] => some x
    | '-' :: e => (digitsOf e).map fun k => x / 10 ^ k
    | e => (digitsOf e).map fun k => x * 10 ^ k

/-- Conversions good enough for the texts of the tests. -/
def parsers : Parsers ℚ where
  uint s := digitsOf s.toList
  dbl := real
  bool s := if s = "true" ∨ s = "1" then some true else if s = "false" ∨ s = "0" then some false else none

/-- Replace the first child of the name, or append a new one. -/
def putChild (k : String) (f : Tree → Tree) : List (String × Tree) → List (String × Tree)
  | [] => [(k, f (.node "" []))]
  | c :: cs => if c.1 = k then (k, f c.2) :: cs else c :: putChild k f cs

/-- `ptree::put`. -/
def put (v : String) : List String → Tree → Tree
  | [], .node _ c => .node v c
  | k :: ks, .node d c => .node d (putChild k (put v ks) c)

/-- `get_child(..)...erase(key)`; `get_child` of a missing child throws. -/
def eraseAt (key : String) : List String → Tree → Option Tree
  | [], .node d c => some (.node d (c.filter fun x => x.1 ≠ key))
  | k :: ks, .node d c =>
    match (Tree.node d c).child? k with
    | none => none
    | some t => (eraseAt key ks t).map fun t' => .node d (putChild k (fun _ => t') c)

/-- The statements of the test. -/
inductive Step where
  | put (path : List String) (v : String)
  | erase (path : List String) (key : String)
  | accepts
  | throws

/-- The statements that do not go as the test says. -/
def replay : List Step → Tree → ℕ → List ℕ
  | [], _, _ => []
  | .put p v :: l, t, n => replay l (put v p t) (n + 1)
  | .erase p k :: l, t, n =>
    match eraseAt k p t with
    | none => [n]
    | some t' => replay l t' (n + 1)
  | .accepts :: l, t, n => (if validate parsers t = some () then [] else [n]) ++ replay l t (n + 1)
  | .throws :: l, t, n => (if validate parsers t = none then [] else [n]) ++ replay l t (n + 1)

/-- `expected_passes`, `/repo/tests/test_validate_input_database.cc`. -/
def passesSteps : List Step := [
  .put ["boundary", "type"] "adiabatic", .put ["discretization", "thermal", "fe_degree"] "1", .put ["geometry", "dim"] "3",
  .put ["discretization", "thermal", "quadrature"] "gauss", .put ["geometry", "import_mesh"] "false",
  .put ["geometry", "length"] "1.0", .put ["geometry", "height"] "1.0", .put ["geometry", "width"] "1.0",
  .put ["materials", "n_materials"] "1", .put ["materials", "property_format"] "polynomial",
  .put ["materials", "material_0", "solid", "thermal_conductivity_x"] "10.",
  .put ["materials", "material_0", "solid", "thermal_conductivity_y"] "10.",
  .put ["materials", "material_0", "solid", "thermal_conductivity_z"] "10.",
  .put ["materials", "material_0", "solid", "density"] "10.", .put ["materials", "material_0", "solid", "specific_heat"] "10.",
  .put ["physics", "thermal"] "true", .put ["physics", "mechanical"] "false",
  .put ["post_processor", "filename_prefix"] "output", .put ["refinement", "n_heat_refinements"] "0",
  .put ["sources", "n_beams"] "1", .put ["sources", "beam_0", "type"] "goldak",
  .put ["sources", "beam_0", "scan_path_file"] "sp.txt", .put ["sources", "beam_0", "scan_path_file_format"] "segment",
  .put ["sources", "beam_0", "depth"] "0.1", .put ["sources", "beam_0", "absorption_efficiency"] "0.1",
  .put ["time_stepping", "method"] "forward_euler", .put ["time_stepping", "duration"] "1.0",
  .put ["time_stepping", "time_step"] "0.1", .accepts]

/-- `expected_passes`: every statement goes as the test says. -/
theorem test_expected_passes : replay passesSteps (.node "" []) 0 = [] := by decide +kernel

/-- `expected_failures`, `/repo/tests/test_validate_input_database.cc`. -/
def failuresSteps : List Step := [
  .put ["boundary", "type"] "adiabatic,clamped", .put ["discretization", "thermal", "fe_degree"] "1",
  .put ["geometry", "dim"] "3", .put ["discretization", "thermal", "quadrature"] "gauss",
  .put ["geometry", "import_mesh"] "false", .put ["geometry", "length"] "1.0", .put ["geometry", "height"] "1.0",
  .put ["geometry", "width"] "1.0", .put ["materials", "n_materials"] "1", .put ["materials", "property_format"] "polynomial",
  .put ["materials", "material_0", "solid", "thermal_conductivity_x"] "10.",
  .put ["materials", "material_0", "solid", "thermal_conductivity_y"] "10.",
  .put ["materials", "material_0", "solid", "thermal_conductivity_z"] "10.",
  .put ["materials", "material_0", "solid", "density"] "10.", .put ["materials", "material_0", "solid", "specific_heat"] "10.",
  .put ["physics", "thermal"] "true", .put ["physics", "mechanical"] "true",
  .put ["post_processor", "filename_prefix"] "output", .put ["refinement", "n_heat_refinements"] "0",
  .put ["sources", "n_beams"] "1", .put ["sources", "beam_0", "type"] "goldak",
  .put ["sources", "beam_0", "scan_path_file"] "sp.txt", .put ["sources", "beam_0", "scan_path_file_format"] "segment",
  .put ["sources", "beam_0", "depth"] "0.1", .put ["sources", "beam_0", "absorption_efficiency"] "0.1",
  .put ["time_stepping", "method"] "forward_euler", .put ["time_stepping", "duration"] "1.0",
  .put ["time_stepping", "time_step"] "0.1", .accepts, .erase ["boundary"] "type",
  .put ["boundary", "type"] "adiabatic,convective,traction_free", .throws, .erase ["boundary"] "type",
  .put ["boundary", "type"] "adiabatic", .throws, .erase ["boundary"] "type",
  .put ["boundary", "type"] "adiabatic,clamped,traction_free", .throws, .erase ["boundary"] "type",
  .put ["boundary", "type"] "adiabatic,traction_free", .throws, .put ["boundary", "boundary_1", "type"] "adiabatic,clamped",
  .accepts, .erase ["discretization"] "thermal.fe_degree", .put ["discretization", "thermal", "fe_degree"] "11", .throws,
  .erase ["discretization"] "thermal.fe_degree", .put ["discretization", "thermal", "fe_degree"] "1",
  .erase ["discretization"] "thermal.quadrature", .put ["discretization", "thermal", "quadrature"] "gass", .throws,
  .erase ["discretization"] "thermal.quadrature", .put ["discretization", "thermal", "quadrature"] "gauss",
  .erase ["geometry"] "dim", .put ["geometry", "dim"] "1", .throws, .erase ["geometry"] "dim", .put ["geometry", "dim"] "11",
  .throws, .erase ["geometry"] "dim", .put ["geometry", "dim"] "3", .erase ["geometry"] "use_powder",
  .put ["geometry", "use_powder"] "true", .throws, .erase ["geometry"] "use_powder", .put ["geometry", "use_powder"] "false",
  .erase ["geometry"] "material_deposition", .put ["geometry", "material_deposition"] "true",
  .put ["geometry", "material_deposition_method"] "ffile", .throws, .erase ["geometry"] "material_deposition",
  .erase ["geometry"] "material_deposition_method", .erase ["geometry"] "material_deposition_method",
  .put ["geometry", "material_deposition"] "true", .put ["geometry", "material_deposition_method"] "scan_paths", .throws,
  .put ["geometry", "deposition_length"] "0.1", .put ["geometry", "deposition_height"] "0.1",
  .put ["geometry", "deposition_width"] "0.1", .throws, .erase ["geometry"] "deposition_length",
  .put ["geometry", "lead_time"] "0.1", .throws, .erase ["geometry"] "deposition_height", .throws,
  .put ["geometry", "height"] "0.1", .erase ["geometry"] "deposition_width", .throws,
  .erase ["geometry"] "material_deposition", .erase ["geometry"] "material_deposition_method",
  .erase ["geometry"] "deposition_length", .erase ["geometry"] "deposition_height", .erase ["geometry"] "deposition_width",
  .erase ["geometry"] "lead_time", .erase ["geometry"] "import_mesh", .put ["geometry", "import_mesh"] "true",
  .put ["geometry", "mesh_file"] "mesh.vtk", .throws, .erase ["geometry"] "mesh_file", .put ["geometry", "mesh_format"] "vtk",
  .throws, .erase ["geometry"] "import_mesh", .put ["geometry", "import_mesh"] "false", .erase ["geometry"] "mesh_file",
  .erase ["geometry"] "mesh_format", .erase ["geometry"] "length", .throws, .put ["geometry", "length"] "10.0",
  .erase ["geometry"] "height", .throws, .put ["geometry", "height"] "10.0", .erase ["geometry"] "width", .throws,
  .put ["geometry", "width"] "10.0", .erase ["materials"] "n_materials", .throws, .put ["materials", "n_materials"] "1",
  .erase ["materials"] "property_format", .throws, .put ["materials", "property_format"] "ppoly", .throws,
  .put ["materials", "property_format"] "polynomial", .erase ["materials"] "n_materials",
  .put ["materials", "n_materials"] "2", .put ["materials", "material_2", "solid", "thermal_conductivity_x"] "10.",
  .put ["materials", "material_2", "solid", "thermal_conductivity_y"] "10.",
  .put ["materials", "material_2", "solid", "thermal_conductivity_z"] "10.",
  .put ["materials", "material_2", "solid", "density"] "10.", .put ["materials", "material_2", "solid", "specific_heat"] "10.",
  .throws, .erase ["materials"] "n_materials", .put ["materials", "n_materials"] "1",
  .erase ["materials", "material_2", "solid"] "thermal_conductivity_x",
  .erase ["materials", "material_2", "solid"] "thermal_conductivity_y",
  .erase ["materials", "material_2", "solid"] "thermal_conductivity_z", .erase ["materials", "material_2", "solid"] "density",
  .erase ["materials", "material_2", "solid"] "specific_heat",
  .erase ["materials", "material_0", "solid"] "thermal_conductivity_x",
  .erase ["materials", "material_0", "solid"] "thermal_conductivity_y",
  .erase ["materials", "material_0", "solid"] "thermal_conductivity_z", .erase ["materials", "material_0", "solid"] "density",
  .erase ["materials", "material_0", "solid"] "specific_heat", .throws,
  .put ["materials", "material_0", "solid", "thermal_conductivity_x"] "10.",
  .put ["materials", "material_0", "solid", "thermal_conductivity_y"] "10.",
  .put ["materials", "material_0", "solid", "thermal_conductivity_z"] "10.",
  .put ["materials", "material_0", "solid", "density"] "10.", .put ["materials", "material_0", "solid", "specific_heat"] "10.",
  .erase ["materials", "material_0", "solid"] "thermal_conductivity_x", .throws,
  .put ["materials", "material_0", "solid", "thermal_conductivity_x"] "10.",
  .erase ["materials", "material_0", "solid"] "thermal_conductivity_y", .throws,
  .put ["materials", "material_0", "solid", "thermal_conductivity_y"] "10.",
  .erase ["materials", "material_0", "solid"] "thermal_conductivity_z", .throws,
  .put ["materials", "material_0", "solid", "thermal_conductivity_z"] "10.",
  .erase ["materials", "material_0", "solid"] "density", .throws, .put ["materials", "material_0", "solid", "density"] "10.",
  .erase ["materials", "material_0", "solid"] "specific_heat", .throws,
  .put ["materials", "material_0", "solid", "specific_heat"] "10.", .erase ["boundary"] "type",
  .put ["boundary", "type"] "convective,traction_free",
  .put ["materials", "material_0", "solid", "convection_heat_transfer_coef"] "10.", .throws,
  .erase ["materials", "material_0", "solid"] "convection_heat_transfer_coef",
  .put ["materials", "material_0", "convection_temperature_infty"] "10.", .throws,
  .erase ["materials", "material_0", "solid"] "convection_temperature_infty", .erase ["boundary"] "type",
  .put ["boundary", "type"] "adiabatic,traction_free", .erase ["boundary"] "type",
  .put ["boundary", "type"] "radiative,traction_free", .put ["materials", "material_0", "solid", "emissivity"] "10.", .throws,
  .erase ["materials", "material_0", "solid"] "emissivity",
  .put ["materials", "material_0", "radiation_temperature_infty"] "10.", .throws,
  .erase ["materials", "material_0", "solid"] "radiation_temperature_infty", .erase ["boundary"] "type",
  .put ["boundary", "type"] "adiabatic,clamped", .erase [] "memory_space", .put ["memory_space"] "hhost", .throws,
  .erase [] "memory_space", .erase ["physics"] "thermal", .throws, .put ["physics", "thermal"] "false",
  .erase ["physics"] "mechanical", .throws, .put ["physics", "mechanical"] "false", .throws, .erase ["physics"] "thermal",
  .put ["physics", "thermal"] "true", .erase ["physics"] "mechanical", .put ["physics", "mechanical"] "true",
  .put ["units", "mesh"] "light-year", .throws, .erase [] "units", .put ["units", "heat_source", "power"] "BTU/hour", .throws,
  .erase [] "units", .put ["units", "heat_source", "velocity"] "inch/second", .throws, .erase [] "units",
  .put ["units", "heat_source", "dimension"] "angstrom", .throws, .erase [] "units",
  .put ["units", "heat_source", "scan_path"] "rod", .throws, .erase [] "units", .erase ["post_processor"] "filename_prefix",
  .throws, .put ["post_processor", "filename_prefix"] "output", .erase ["refinement"] "n_heat_refinements",
  .erase [] "refinement", .throws, .put ["refinement", "n_heat_refinements"] "0", .erase ["sources"] "n_beams", .throws,
  .put ["sources", "n_beams"] "1", .erase ["sources", "beam_0"] "type", .throws, .put ["sources", "beam_0", "type"] "goldak",
  .erase ["sources", "beam_0"] "type", .put ["sources", "beam_0", "type"] "gold", .throws,
  .put ["sources", "beam_0", "type"] "goldak", .erase ["sources", "beam_0"] "scan_path_file", .throws,
  .put ["sources", "beam_0", "scan_path_file"] "sp.txt", .erase ["sources", "beam_0"] "scan_path_file_format", .throws,
  .put ["sources", "beam_0", "scan_path_file_format"] "segment", .erase ["sources", "beam_0"] "scan_path_file_format",
  .put ["sources", "beam_0", "scan_path_file_format"] "seg", .throws,
  .put ["sources", "beam_0", "scan_path_file_format"] "segment", .erase ["sources", "beam_0"] "depth", .throws,
  .put ["sources", "beam_0", "depth"] "0.1", .erase ["sources", "beam_0"] "absorption_efficiency", .throws,
  .put ["sources", "beam_0", "absorption_efficiency"] "0.1", .erase ["time_stepping"] "method", .throws,
  .put ["time_stepping", "method"] "forward_euler", .erase ["time_stepping"] "method",
  .put ["time_stepping", "method"] "4_step_jump", .throws, .put ["time_stepping", "method"] "forward_euler",
  .put ["experiment", "read_in_experimental_data"] "true", .put ["experiment", "file"] "file.csv",
  .put ["experiment", "last_frame"] "1", .put ["experiment", "first_camera_id"] "0", .put ["experiment", "last_camera_id"] "1",
  .throws, .erase ["experiment"] "file", .put ["experiment", "log_filename"] "log.txt", .throws,
  .erase ["experiment"] "last_frame", .throws, .put ["experiment", "last_frame"] "1", .erase ["experiment"] "first_camera_id",
  .throws, .put ["experiment", "first_camera_id"] "0", .erase ["experiment"] "last_camera_id", .throws,
  .put ["experiment", "first_camera_id"] "0", .throws, .erase ["experiment"] "file", .erase ["experiment"] "last_frame",
  .erase ["experiment"] "first_camera_id", .erase ["experiment"] "last_camera_id",
  .erase ["experiment"] "read_in_experimental_data", .put ["experiment", "read_in_experimental_data"] "true",
  .put ["experiment", "first_frame"] "4", .put ["experiment", "last_frame"] "3", .throws, .erase ["experiment"] "last_frame",
  .erase ["experiment"] "first_frame", .erase ["experiment"] "read_in_experimental_data",
  .put ["experiment", "read_in_experimental_data"] "true", .put ["experiment", "first_camera_id"] "4",
  .put ["experiment", "last_camera_id"] "3", .throws, .erase ["experiment"] "first_camera_id",
  .erase ["experiment"] "last_camera_id", .erase ["experiment"] "read_in_experimental_data",
  .put ["experiment", "read_in_experimental_data"] "true", .throws, .put ["geometry", "dim"] "2", .throws,
  .erase ["geometry"] "dim", .put ["geometry", "dim"] "3", .erase ["experiment"] "read_in_experimental_data", .accepts]

/-- `expected_failures`: every statement goes as the test says. -/
theorem test_expected_failures : replay failuresSteps (.node "" []) 0 = [] := by decide +kernel

/-- `/repo/tests/data/bare_plate_L_da.info`. -/
def bare_plate_L_da : Tree := .node "" [
  ("ensemble", .node "" [
    ("ensemble_simulation", .node "true" []),
    ("ensemble_size", .node "3" []),
    ("materials", .node "" [
      ("initial_temperature_stddev", .node "50.0" [])])]),
  ("experiment", .node "" [
    ("read_in_experimental_data", .node "true" []),
    ("log_filename", .node "bare_plate_L_expt_log.txt" []),
    ("file", .node "bare_plate_L_expt_data_#camera_#frame.csv" []),
    ("format", .node "point_cloud" []),
    ("first_frame", .node "0" []),
    ("last_frame", .node "1" []),
    ("first_camera_id", .node "0" []),
    ("last_camera_id", .node "0" []),
    ("first_frame_temporal_offset", .node "0.0105" []),
    ("estimated_uncertainty", .node "5.0" [])]),
  ("data_assimilation", .node "" [
    ("assimilate_data", .node "true" []),
    ("localization_cutoff_function", .node "gaspari_cohn" []),
    ("localization_cutoff_distance", .node "1.0e-3" []),
    ("solver", .node "" [
      ("max_number_of_temp_vectors", .node "10" []),
      ("convergence_tolerance", .node "1.0e-8" [])])]),
  ("physics", .node "" [
    ("thermal", .node "true" []),
    ("mechanical", .node "false" [])]),
  ("geometry", .node "" [
    ("import_mesh", .node "false" []),
    ("dim", .node "3" []),
    ("length", .node "5.0e-3" []),
    ("height", .node "0.5e-3" []),
    ("width", .node "5.0e-3" []),
    ("length_divisions", .node "4" []),
    ("height_divisions", .node "1" []),
    ("width_divisions", .node "4" [])]),
  ("boundary", .node "" [
    ("type", .node "adiabatic" [])]),
  ("refinement", .node "" [
    ("n_refinements", .node "1" []),
    ("time_steps_between_refinement", .node "250" [])]),
  ("materials", .node "" [
    ("n_materials", .node "1" []),
    ("property_format", .node "polynomial" []),
    ("initial_temperature", .node "300" []),
    ("material_0", .node "" [
      ("solid", .node "" [
        ("density", .node "7904" []),
        ("specific_heat", .node "714" []),
        ("thermal_conductivity_x", .node "31.4" []),
        ("thermal_conductivity_y", .node "31.4" []),
        ("thermal_conductivity_z", .node "31.4" [])]),
      ("powder", .node "" [
        ("specific_heat", .node "714" []),
        ("density", .node "7904" []),
        ("thermal_conductivity_x", .node "0.314" []),
        ("thermal_conductivity_y", .node "0.314" []),
        ("thermal_conductivity_z", .node "0.314" [])]),
      ("liquid", .node "" [
        ("specific_heat", .node "847" []),
        ("density", .node "7904" []),
        ("thermal_conductivity_x", .node "37.3" []),
        ("thermal_conductivity_y", .node "37.3" []),
        ("thermal_conductivity_z", .node "37.3" [])]),
      ("solidus", .node "1675" []),
      ("liquidus", .node "1708" []),
      ("latent_heat", .node "290000" [])])]),
  ("sources", .node "" [
    ("n_beams", .node "1" []),
    ("beam_0", .node "" [
      ("type", .node "goldak" []),
      ("depth", .node "0.5e-3" []),
      ("diameter", .node "0.6e-3" []),
      ("scan_path_file", .node "bare_plate_L_scan_path.txt" []),
      ("scan_path_file_format", .node "segment" []),
      ("absorption_efficiency", .node "0.3" []),
      ("max_power", .node "400.0" [])])]),
  ("time_stepping", .node "" [
    ("method", .node "forward_euler" []),
    ("duration", .node "5.0e-2" []),
    ("time_step", .node "1.0e-4" [])]),
  ("post_processor", .node "" [
    ("filename_prefix", .node "output" []),
    ("time_steps_between_output", .node "20" [])]),
  ("discretization", .node "" [
    ("thermal", .node "" [
      ("fe_degree", .node "3" []),
      ("quadrature", .node "gauss" [])])]),
  ("profiling", .node "" [
    ("timer", .node "false" []),
    ("caliper", .node "spot(profile.mpi),loop-report,runtime-report" [])]),
  ("memory_space", .node "host" [])]

/-- `/repo/tests/data/bare_plate_L_ensemble.info`. -/
def bare_plate_L_ensemble : Tree := .node "" [
  ("ensemble", .node "" [
    ("ensemble_simulation", .node "true" []),
    ("ensemble_size", .node "3" []),
    ("materials", .node "" [
      ("initial_temperature_stddev", .node "10.0" [])])]),
  ("physics", .node "" [
    ("thermal", .node "true" []),
    ("mechanical", .node "false" [])]),
  ("geometry", .node "" [
    ("import_mesh", .node "false" []),
    ("dim", .node "3" []),
    ("length", .node "5.0e-3" []),
    ("height", .node "0.5e-3" []),
    ("width", .node "5.0e-3" []),
    ("length_divisions", .node "25" []),
    ("height_divisions", .node "2" []),
    ("width_divisions", .node "25" [])]),
  ("boundary", .node "" [
    ("type", .node "adiabatic" [])]),
  ("refinement", .node "" [
    ("n_refinements", .node "0" []),
    ("time_steps_between_refinement", .node "2000000000" [])]),
  ("materials", .node "" [
    ("n_materials", .node "1" []),
    ("property_format", .node "polynomial" []),
    ("initial_temperature", .node "300" []),
    ("material_0", .node "" [
      ("solid", .node "" [
        ("density", .node "7904" []),
        ("specific_heat", .node "714" []),
        ("thermal_conductivity_x", .node "31.4" []),
        ("thermal_conductivity_y", .node "31.4" []),
        ("thermal_conductivity_z", .node "31.4" [])]),
      ("powder", .node "" [
        ("specific_heat", .node "714" []),
        ("density", .node "7904" []),
        ("thermal_conductivity_x", .node "0.314" []),
        ("thermal_conductivity_y", .node "0.314" []),
        ("thermal_conductivity_z", .node "0.314" [])]),
      ("liquid", .node "" [
        ("specific_heat", .node "847" []),
        ("density", .node "7904" []),
        ("thermal_conductivity_x", .node "37.3" []),
        ("thermal_conductivity_y", .node "37.3" []),
        ("thermal_conductivity_z", .node "37.3" [])]),
      ("solidus", .node "1675" []),
      ("liquidus", .node "1708" []),
      ("latent_heat", .node "290000" [])])]),
  ("sources", .node "" [
    ("n_beams", .node "1" []),
    ("beam_0", .node "" [
      ("type", .node "goldak" []),
      ("depth", .node "0.5e-3" []),
      ("diameter", .node "0.6e-3" []),
      ("scan_path_file", .node "bare_plate_L_scan_path.txt" []),
      ("scan_path_file_format", .node "segment" []),
      ("absorption_efficiency", .node "0.3" []),
      ("max_power", .node "400.0" [])])]),
  ("time_stepping", .node "" [
    ("method", .node "forward_euler" []),
    ("duration", .node "5.0e-2" []),
    ("time_step", .node "5.0e-5" [])]),
  ("post_processor", .node "" [
    ("filename_prefix", .node "output" []),
    ("time_steps_between_output", .node "10" [])]),
  ("discretization", .node "" [
    ("thermal", .node "" [
      ("fe_degree", .node "3" []),
      ("quadrature", .node "gauss" [])])]),
  ("profiling", .node "" [
    ("timer", .node "false" []),
    ("caliper", .node "spot(profile.mpi),loop-report,runtime-report" [])]),
  ("memory_space", .node "host" [])]

/-- `/repo/tests/data/demo_316_short.info`. -/
def demo_316_short : Tree := .node "" [
  ("geometry", .node "" [
    ("import_mesh", .node "false" []),
    ("dim", .node "3" []),
    ("length", .node "10e-3" []),
    ("height", .node "2.0e-3" []),
    ("width", .node "10e-3" []),
    ("length_divisions", .node "50" []),
    ("height_divisions", .node "8" []),
    ("width_divisions", .node "50" []),
    ("material_deposition", .node "true" []),
    ("material_deposition_method", .node "scan_paths" []),
    ("deposition_length", .node "0.0003" []),
    ("deposition_height", .node "0.0002" []),
    ("deposition_width", .node "0.0003" []),
    ("deposition_lead_time", .node "0.0005" []),
    ("material_height", .node "0.75e-3" [])]),
  ("boundary", .node "" [
    ("type", .node "convective,radiative" [])]),
  ("physics", .node "" [
    ("thermal", .node "true" []),
    ("mechanical", .node "false" [])]),
  ("refinement", .node "" [
    ("n_refinements", .node "0" []),
    ("time_steps_between_refinement", .node "2000000000" [])]),
  ("materials", .node "" [
    ("n_materials", .node "1" []),
    ("property_format", .node "polynomial" []),
    ("material_0", .node "" [
      ("solid", .node "" [
        ("density", .node "7904" []),
        ("specific_heat", .node "714" []),
        ("thermal_conductivity_x", .node "31.4" []),
        ("thermal_conductivity_y", .node "31.4" []),
        ("thermal_conductivity_z", .node "31.4" []),
        ("convection_heat_transfer_coef", .node "100" []),
        ("emissivity", .node "0.15" [])]),
      ("powder", .node "" [
        ("specific_heat", .node "714" []),
        ("density", .node "7904" []),
        ("thermal_conductivity_x", .node "0.314" []),
        ("thermal_conductivity_y", .node "0.314" []),
        ("thermal_conductivity_z", .node "0.314" []),
        ("convection_heat_transfer_coef", .node "100" []),
        ("emissivity", .node "0.15" [])]),
      ("liquid", .node "" [
        ("specific_heat", .node "847" []),
        ("density", .node "7904" []),
        ("thermal_conductivity_x", .node "37.3" []),
        ("thermal_conductivity_y", .node "37.3" []),
        ("thermal_conductivity_z", .node "37.3" []),
        ("convection_heat_transfer_coef", .node "100" []),
        ("emissivity", .node "0.15" [])]),
      ("solidus", .node "1675" []),
      ("liquidus", .node "1708" []),
      ("latent_heat", .node "290000" []),
      ("radiation_temperature_infty", .node "300" []),
      ("convection_temperature_infty", .node "300" [])])]),
  ("sources", .node "" [
    ("n_beams", .node "1" []),
    ("beam_0", .node "" [
      ("type", .node "goldak" []),
      ("depth", .node "0.5e-3" []),
      ("diameter", .node "0.6e-3" []),
      ("scan_path_file", .node "demo_316_short_scan_path.txt" []),
      ("scan_path_file_format", .node "segment" []),
      ("absorption_efficiency", .node "0.3" []),
      ("max_power", .node "400.0" [])])]),
  ("time_stepping", .node "" [
    ("method", .node "forward_euler" []),
    ("duration", .node "0.004" []),
    ("time_step", .node "0.6e-4" [])]),
  ("post_processor", .node "" [
    ("filename_prefix", .node "output" []),
    ("time_steps_between_output", .node "10" [])]),
  ("discretization", .node "" [
    ("thermal", .node "" [
      ("fe_degree", .node "3" []),
      ("quadrature", .node "gauss" [])])]),
  ("profiling", .node "" [
    ("timer", .node "false" []),
    ("caliper", .node "spot(profile.mpi),loop-report,runtime-report" [])]),
  ("memory_space", .node "host" [])]

/-- `/repo/tests/data/integration_2d.info`. -/
def integration_2d : Tree := .node "" [
  ("geometry", .node "" [
    ("import_mesh", .node "false" []),
    ("dim", .node "2" []),
    ("length", .node "2e-2" []),
    ("height", .node "1e-2" []),
    ("length_divisions", .node "20" []),
    ("height_divisions", .node "10" [])]),
  ("physics", .node "" [
    ("thermal", .node "true" []),
    ("mechanical", .node "false" [])]),
  ("refinement", .node "" [
    ("n_refinements", .node "2" [])]),
  ("materials", .node "" [
    ("property_format", .node "polynomial" []),
    ("n_materials", .node "1" []),
    ("material_0", .node "" [
      ("solid", .node "" [
        ("density", .node "7541" []),
        ("specific_heat", .node "600" []),
        ("thermal_conductivity_x", .node "26.6" []),
        ("thermal_conductivity_z", .node "26.6" [])]),
      ("powder", .node "" [
        ("specific_heat", .node "600" []),
        ("density", .node "7541" []),
        ("thermal_conductivity_x", .node "0.266" []),
        ("thermal_conductivity_z", .node "0.266" [])]),
      ("liquid", .node "" [
        ("specific_heat", .node "775" []),
        ("density", .node "7541" []),
        ("thermal_conductivity_x", .node "29.0" []),
        ("thermal_conductivity_z", .node "29.0" [])]),
      ("solidus", .node "1528" []),
      ("liquidus", .node "1610" []),
      ("latent_heat", .node "227000" [])])]),
  ("sources", .node "" [
    ("n_beams", .node "1" []),
    ("beam_0", .node "" [
      ("depth", .node "1e-3" []),
      ("diameter", .node "1e-3" []),
      ("scan_path_file", .node "scan_path.txt" []),
      ("scan_path_file_format", .node "segment" []),
      ("absorption_efficiency", .node "0.3" []),
      ("max_power", .node "1200.0" []),
      ("type", .node "electron_beam" [])])]),
  ("time_stepping", .node "" [
    ("method", .node "forward_euler" []),
    ("duration", .node "1e-9" []),
    ("time_step", .node "5e-11" [])]),
  ("post_processor", .node "" [
    ("filename_prefix", .node "output" [])]),
  ("discretization", .node "" [
    ("thermal", .node "" [
      ("fe_degree", .node "3" []),
      ("quadrature", .node "gauss" [])])]),
  ("boundary", .node "" [
    ("type", .node "adiabatic" [])])]

/-- `parse_test_input_files`: the four input files are accepted. -/
theorem test_parse_test_input_files : ∀ t ∈ [bare_plate_L_da, bare_plate_L_ensemble, demo_316_short, integration_2d],
    validate parsers t = some () := by
  decide +kernel

end Verif.Conformance
