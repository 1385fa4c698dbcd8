import Verif.Model.Np

/-!
# Names read and bound by functions

Which names a Python function reads and binds, in which order, with everything else (values, calls) left open: a call may succeed or
raise any exception, a condition may have any value, a loop may run any number of times. Used for functions of the library that read a
name which is never bound.
-/

namespace Qampy

/-- The control flow of a function body as far as names are concerned. -/
inductive NameCmd where
  /-- nothing -/
  | skip
  /-- load the name `x` -/
  | use (x : String)
  /-- bind the local name `x` -/
  | set (x : String)
  /-- an operation that may raise -/
  | call
  /-- return from the function -/
  | ret
  /-- one after the other -/
  | seq (a b : NameCmd)
  /-- `if` with any condition -/
  | ite (a b : NameCmd)
  /-- a loop with any number of rounds -/
  | loop (b : NameCmd)
  /-- `try a except E: h` for one exception `E` -/
  | tryE (e : PyErr) (a h : NameCmd)

/-- What a module and a function provide: the global names (with the builtin ones) and the local names, i.e. parameters and all names
bound anywhere in the body (Python decides this when the function is compiled). -/
structure NameScope where
  globals : List String
  locals : List String

/-- How a run ends: normally, by `return`, or by an exception; the bound local names are kept for handlers. -/
inductive NameOut where
  | done (env : List String)
  | returned
  | raised (e : PyErr) (env : List String)

/-- The runs of a body, starting with the bound local names `env`. Loading a local name that is not bound raises UnboundLocalError, a
name that is neither local nor global raises NameError. -/
inductive NameRun (sc : NameScope) : NameCmd → List String → NameOut → Prop
  | skip (env) : NameRun sc .skip env (.done env)
  | use_local (x env) (h : x ∈ sc.locals) (hb : x ∈ env) : NameRun sc (.use x) env (.done env)
  | use_unbound (x env) (h : x ∈ sc.locals) (hb : x ∉ env) : NameRun sc (.use x) env (.raised .unbound env)
  | use_global (x env) (h : x ∉ sc.locals) (hg : x ∈ sc.globals) : NameRun sc (.use x) env (.done env)
  | use_missing (x env) (h : x ∉ sc.locals) (hg : x ∉ sc.globals) : NameRun sc (.use x) env (.raised .name env)
  | set (x env) : NameRun sc (.set x) env (.done (x :: env))
  | call_ok (env) : NameRun sc .call env (.done env)
  | call_raises (env) (e : PyErr) : NameRun sc .call env (.raised e env)
  | ret (env) : NameRun sc .ret env .returned
  | seq_done (a b env env' o) (ha : NameRun sc a env (.done env')) (hb : NameRun sc b env' o) : NameRun sc (.seq a b) env o
  | seq_ret (a b env) (ha : NameRun sc a env .returned) : NameRun sc (.seq a b) env .returned
  | seq_raised (a b env e env') (ha : NameRun sc a env (.raised e env')) : NameRun sc (.seq a b) env (.raised e env')
  | ite_then (a b env o) (ha : NameRun sc a env o) : NameRun sc (.ite a b) env o
  | ite_else (a b env o) (hb : NameRun sc b env o) : NameRun sc (.ite a b) env o
  | loop_end (b env) : NameRun sc (.loop b) env (.done env)
  | loop_step (b env env' o) (hb : NameRun sc b env (.done env')) (hl : NameRun sc (.loop b) env' o) : NameRun sc (.loop b) env o
  | loop_ret (b env) (hb : NameRun sc b env .returned) : NameRun sc (.loop b) env .returned
  | loop_raised (b env e env') (hb : NameRun sc b env (.raised e env')) : NameRun sc (.loop b) env (.raised e env')
  | try_done (e a h env env') (ha : NameRun sc a env (.done env')) : NameRun sc (.tryE e a h) env (.done env')
  | try_ret (e a h env) (ha : NameRun sc a env .returned) : NameRun sc (.tryE e a h) env .returned
  | try_handled (e a h env env' o) (ha : NameRun sc a env (.raised e env')) (hh : NameRun sc h env' o) : NameRun sc (.tryE e a h) env o
  | try_raised (e a h env e' env') (ha : NameRun sc a env (.raised e' env')) (hne : e' ≠ e) :
      NameRun sc (.tryE e a h) env (.raised e' env')

/-- Statements one after the other. -/
def nameBlock (l : List NameCmd) : NameCmd := l.foldr .seq .skip

/-- An expression or call that loads the names `xs` and may raise. -/
def nameExpr (xs : List String) : NameCmd := .seq (nameBlock (xs.map .use)) .call

/-- An assignment to `ys` of an expression that loads `xs`. -/
def nameAssign (ys xs : List String) : NameCmd := .seq (nameExpr xs) (nameBlock (ys.map .set))

/-- `return` of an expression that loads `xs`. -/
def nameReturn (xs : List String) : NameCmd := .seq (nameExpr xs) .ret

/-- All names that a body binds. -/
def NameCmd.bound : NameCmd → List String
  | .set x => [x]
  | .seq a b => a.bound ++ b.bound
  | .ite a b => a.bound ++ b.bound
  | .loop b => b.bound
  | .tryE _ a h => a.bound ++ h.bound
  | _ => []

/-- A function: global names of its module, parameters, body. The local names are the parameters and everything the body binds. -/
structure NameFun where
  globals : List String
  params : List String
  body : NameCmd

/-- The scope of a function. -/
def NameFun.scope (f : NameFun) : NameScope := ⟨f.globals, f.params ++ f.body.bound⟩

/-- The ways a call of `f` can end. -/
def NameFun.Ends (f : NameFun) (o : NameOut) : Prop := NameRun f.scope f.body f.params o

/-- Names of core/ber_functions.py (lines 22-359) and the builtins used here. -/
def berGlobals : List String :=
  ["np", "fftconvolve", "utils", "DataSyncError", "find_sequence_offset", "find_sequence_offset_complex", "sync_and_adjust", "sync_rx2tx",
   "sync_tx2rx", "adjust_data_length", "_adjust_to", "cal_ber_syncd", "cal_ber_nosyncd", "len", "ValueError"]

/-- `cal_ber_nosyncd(data_rx, data_tx)`, core/ber_functions.py:359-394. -/
def calBerNosyncd : NameFun where
  globals := berGlobals
  params := ["data_rx", "data_tx"]
  body := nameBlock [
    .tryE .dataSync (nameAssign ["idx"] ["find_sequence_offset", "data_tx", "data_rx"])
      (nameAssign ["idx"] ["find_sequence_offset", "data_tx", "data_rx"]),
    nameAssign ["data_tx_sync"] ["adjust_data_length", "data_tx_sync", "data_rx"],
    nameReturn ["cal_ber_syncd", "data_rx", "data_tx_sync"]]

/-- `cal_ber_syncd(data_rx, data_tx, threshold)`, core/ber_functions.py:322-357. -/
def calBerSyncdNames : NameFun where
  globals := berGlobals
  params := ["data_rx", "data_tx", "threshold"]
  body := nameBlock [
    nameAssign ["errs"] ["np", "data_rx", "data_tx"],
    nameAssign ["N"] ["len", "data_tx"],
    nameAssign ["ber"] ["errs", "N"],
    nameExpr ["ber", "threshold"],
    .ite (nameExpr ["ValueError", "threshold"]) .skip,
    nameReturn ["ber", "errs", "N"]]

/-- Names of core/filter.py (lines 23-215) and the builtins used here. -/
def filterGlobals : List String :=
  ["np", "rrcos_freq", "rrcos_time", "scisig", "scifft", "pre_filter", "pre_filter_wdm", "filter_signal", "_rrcos_pulseshaping_freq",
   "rrcos_pulseshaping", "moving_average", "len", "abs", "range", "int", "ValueError"]

/-- `pre_filter_wdm(signal, bw, os, center_freq)`, core/filter.py:51-84. -/
def preFilterWdm : NameFun where
  globals := filterGlobals
  params := ["signal", "bw", "os", "center_freq"]
  body := nameBlock [
    nameAssign ["N"] ["len", "signal"],
    nameAssign ["h"] ["np", "N", "sig"],
    nameAssign ["freq_axis"] ["scifft", "N", "os"],
    nameAssign ["idx"] ["np", "abs", "freq_axis", "center_freq", "bw"],
    nameExpr ["h", "idx"],
    nameAssign ["s"] ["scifft", "signal", "h"],
    nameReturn ["s"]]

/-- Names of theory.py (lines 22-312) and the builtins used here. -/
def theoryGlobals : List String :=
  ["np", "erfc", "q_function", "pythran_dsp", "bin2gray", "dB2lin", "ser_vs_es_over_n0_qam", "ber_vs_evm_qam", "ber_vs_es_over_n0_qam",
   "ser_vs_es_over_n0_psk", "ser_vs_es_over_n0_4pam", "cal_symbols_qam", "cal_symbols_psk", "cal_scaling_factor_qam",
   "cal_symbols_square_qam", "cal_symbols_cross_qam", "gray_code_qam", "cal_ps_probablts", "generate_ps_symbols",
   "hybrid_qam_ber_vs_esn0", "cal_gmi", "sim_mi_mc", "range", "int", "len", "abs"]

/-- `hybrid_qam_ber_vs_esn0(snr, pr, fr, M1, M2)`, theory.py:250-280. -/
def hybridQamBer : NameFun where
  globals := theoryGlobals
  params := ["snr", "pr", "fr", "M1", "M2"]
  body := nameBlock [
    nameAssign ["snr"] ["snr"],
    nameAssign ["bps1"] ["np", "M1"],
    nameAssign ["bps2"] ["np", "M2"],
    nameReturn ["fr", "bps1", "bps2", "theory", "snr", "pr", "M1", "M2"]]

/-- Names of core/pilotbased_transmitter.py (lines 10-188; line 11 is commented out) and the builtins used here. -/
def txGlobals : List String :=
  ["np", "helpers", "utils", "impairments", "make_prbs_extXOR", "gen_dataframe_with_phasepilots", "gen_dataframe_without_phasepilots",
   "gen_dataframe_with_phasepilots_hybridmodulation", "sim_tx", "int", "len", "range", "sum", "complex", "bool", "ValueError"]

/-- The bits and symbols of one polarisation, core/pilotbased_transmitter.py:40-49 and 84-96. -/
def txModulate : NameCmd := nameBlock [
  .ite (nameBlock [
      nameAssign ["pilot_bits"] ["make_prbs_extXOR", "PRBSorder", "N_pilot_bits", "PRBSseed"],
      nameAssign ["data_bits"] ["make_prbs_extXOR", "PRBSorder", "N_data_bits", "PRBSseed"]])
    (nameBlock [
      nameAssign ["pilot_bits"] ["np", "N_pilot_bits", "bool"],
      nameAssign ["data_bits"] ["np", "N_data_bits", "bool"]]),
  nameExpr ["pilot_symbs", "pilot_modualtor", "pilot_bits"],
  nameExpr ["data_symbs", "data_modulator", "data_bits"]]

/-- Writing pilots and payload of one polarisation into the frame, core/pilotbased_transmitter.py:51-60 and 174-183. -/
def txInsert : NameCmd := nameBlock [
  nameExpr ["symbol_seq", "pilot_seq_len", "pilot_symbs"],
  nameExpr ["symbol_seq", "pilot_seq_len", "pilot_ins_ratio", "pilot_symbs"],
  .loop (.seq (.set "j") (nameExpr ["symbol_seq", "pilot_seq_len", "j", "pilot_ins_ratio", "data_symbs"]))]

/-- `gen_dataframe_with_phasepilots`, core/pilotbased_transmitter.py:17-62. -/
def genWithPilots : NameFun where
  globals := txGlobals
  params := ["M", "npols", "frame_length", "pilot_seq_len", "pilot_ins_ratio", "PRBS", "PRBSorder", "PRBSseed"]
  body := nameBlock [
    nameAssign ["data_modulator"] ["modulation", "M"],
    nameAssign ["pilot_modualtor"] ["modulation"],
    nameAssign ["N_data_frames"] ["int", "frame_length", "pilot_seq_len", "pilot_ins_ratio"],
    .ite (nameExpr ["ValueError"]) .skip,
    nameAssign ["N_pilot_symbs"] ["pilot_seq_len", "N_data_frames"],
    nameAssign ["N_data_symbs"] ["N_data_frames", "pilot_ins_ratio"],
    nameAssign ["N_pilot_bits"] ["N_pilot_symbs", "pilot_modualtor"],
    nameAssign ["N_data_bits"] ["N_data_symbs", "data_modulator"],
    nameAssign ["symbol_seq"] ["np", "npols", "frame_length", "complex"],
    nameAssign ["data_symbs"] ["np", "npols", "N_data_symbs", "complex"],
    nameAssign ["pilot_symbs"] ["np", "npols", "N_pilot_symbs", "complex"],
    .loop (nameBlock [.set "l", txModulate, txInsert]),
    nameReturn ["symbol_seq", "data_symbs", "pilot_symbs"]]

/-- `gen_dataframe_without_phasepilots`, core/pilotbased_transmitter.py:65-103. -/
def genWithoutPilots : NameFun where
  globals := txGlobals
  params := ["M", "npols", "frame_length", "pilot_seq_len", "PRBS", "PRBSorder", "PRBSseed"]
  body := nameBlock [
    nameAssign ["data_modulator"] ["modulation", "M"],
    nameAssign ["pilot_modualtor"] ["modulation"],
    .ite (nameExpr ["ValueError"]) .skip,
    nameAssign ["N_data_symbs"] ["int", "frame_length", "pilot_seq_len"],
    nameAssign ["N_pilot_bits"] ["pilot_seq_len", "pilot_modualtor"],
    nameAssign ["N_data_bits"] ["N_data_symbs", "data_modulator"],
    nameAssign ["symbol_seq"] ["np", "npols", "frame_length", "complex"],
    nameAssign ["data_symbs"] ["np", "npols", "N_data_symbs", "complex"],
    nameAssign ["pilot_symbs"] ["np", "npols", "pilot_seq_len", "complex"],
    .loop (nameBlock [.set "l", txModulate, nameExpr ["symbol_seq", "pilot_seq_len", "pilot_symbs"],
      nameExpr ["symbol_seq", "pilot_seq_len", "data_symbs"]]),
    nameReturn ["symbol_seq", "data_symbs", "pilot_symbs"]]

/-- `gen_dataframe_with_phasepilots_hybridmodulation`, core/pilotbased_transmitter.py:106-185. -/
def genHybrid : NameFun where
  globals := txGlobals
  params := ["M", "mod_ratio", "npols", "frame_length", "pilot_seq_len", "pilot_ins_ratio"]
  body := nameBlock [
    .ite (nameExpr ["ValueError"]) .skip,
    nameAssign ["N_data_frames"] ["int", "frame_length", "pilot_seq_len", "pilot_ins_ratio"],
    .ite (nameExpr ["ValueError"]) .skip,
    nameAssign ["pilot_modualtor"] ["modulation"],
    nameAssign ["data_modulators"] [],
    .loop (.seq (.set "mod") (nameExpr ["data_modulators", "modulation", "mod"])),
    nameAssign ["N_data_symbs"] ["int", "N_data_frames", "pilot_ins_ratio"],
    nameAssign ["norm_factors"] ["np", "len", "M"],
    .loop (.seq (.set "i") (nameExpr ["norm_factors", "i", "np", "data_modulators"])),
    nameExpr ["norm_factors", "np"],
    nameAssign ["N_pilot_symbs"] ["pilot_seq_len", "N_data_frames"],
    nameAssign ["N_pilot_bits"] ["N_pilot_symbs", "pilot_modualtor"],
    nameAssign ["sub_blocks"] ["N_data_symbs", "sum", "mod_ratio"],
    nameAssign ["rem_symbs"] ["N_data_symbs", "sum", "mod_ratio"],
    nameAssign ["symbol_seq"] ["np", "npols", "frame_length", "complex"],
    nameAssign ["data_symbs"] ["np", "npols", "N_data_symbs", "complex"],
    nameAssign ["pilot_symbs"] ["np", "npols", "N_pilot_symbs", "complex"],
    .loop (nameBlock [.set "l", nameAssign ["mod_symbs"] [],
      .loop (nameBlock [.set "i",
        .ite (nameBlock [
            .ite (nameAssign ["add_symbs"] ["sum", "mod_ratio", "i"]) (nameAssign ["add_symbs"] ["rem_symbs", "sum", "mod_ratio", "i"]),
            nameAssign ["tmp_bits"] ["np", "sub_blocks", "mod_ratio", "i", "add_symbs", "M", "bool"]])
          (nameAssign ["tmp_bits"] ["np", "sub_blocks", "mod_ratio", "i", "M", "bool"]),
        nameExpr ["mod_symbs", "data_modulators", "i", "tmp_bits", "norm_factors"]]),
      nameAssign ["place_ind"] ["np", "mod_ratio"],
      .loop (nameBlock [.set "i", nameAssign ["place"] ["np", "i", "place_ind"],
        nameExpr ["data_symbs", "l", "i", "mod_symbs", "place", "sum", "mod_ratio"]]),
      nameExpr ["data_symbs", "l", "np"],
      nameAssign ["pilot_bits"] ["np", "N_pilot_bits", "bool"],
      nameExpr ["pilot_symbs", "l", "pilot_modualtor", "pilot_bits"],
      txInsert]),
    nameReturn ["symbol_seq", "data_symbs", "pilot_symbs"]]

/-- Names of core/pilotbased_receiver.py (lines 23-454) and the builtins used here. -/
def rxGlobals : List String :=
  ["warnings", "np", "interp1d", "equalisation", "_init_taps", "phaserecovery", "filter", "ber_functions", "pilot_based_foe",
   "pilot_based_cpe2", "pilot_based_cpe", "pilot_based_cpe_new", "frame_sync", "correct_shifts", "shift_signal",
   "equalize_pilot_sequence", "int", "range", "complex", "ValueError"]

/-- `pilot_based_cpe2(rec_symbs, pilot_symbs, num_average, use_pilot_ratio)`, core/pilotbased_receiver.py:75-165. -/
def pilotBasedCpe2 : NameFun where
  globals := rxGlobals
  params := ["rec_symbs", "pilot_symbs", "num_average", "use_pilot_ratio"]
  body := nameBlock [
    nameAssign ["pilots_symbs"] ["rec_symbs"],
    nameAssign ["npols"] ["rec_symbs"],
    nameExpr ["numBlocks", "use_pilot_ratio"],
    .ite (nameAssign ["numBlocks"] ["numBlocks", "use_pilot_ratio"]) .skip,
    nameAssign ["numRefPilots"] ["np", "pilot_symbs"],
    nameExpr ["numBlocks", "numRefPilots"],
    .ite (nameBlock [
        nameAssign ["numBlocks"] ["numRefPilots"],
        nameAssign ["rec_symbs"] ["rec_symbs", "int", "numBlocks", "pilot_ins_ratio"],
        nameAssign ["rec_pilots"] ["rec_pilots", "int", "numBlocks"]])
      (.ite (nameAssign ["pilot_symbs"] ["pilot_symbs", "int", "numBlocks"]) .skip),
    .ite (nameExpr ["ValueError", "use_pilot_ratio", "pilot_symbs"]) .skip,
    nameAssign ["rec_pilots"] ["rec_pilots", "int", "use_pilot_ratio"],
    nameAssign ["pilot_symbs"] ["pilot_symbs", "int", "use_pilot_ratio"],
    .ite (nameExpr ["ValueError"]) .skip,
    .ite (nameAssign ["num_average"] ["num_average"]) .skip,
    nameAssign ["data_symbs"] ["np", "npols", "rec_symbs", "complex"],
    nameAssign ["phase_trace"] ["np", "npols", "rec_symbs"],
    nameAssign ["res_phase"] ["pilot_symbs", "rec_pilots"],
    nameAssign ["pilot_phase_base"] ["np", "res_phase"],
    nameAssign ["pilot_phase_average"] ["filter", "pilot_phase_base", "num_average"],
    nameAssign ["pp1"] ["pilot_phase_base", "int", "num_average"],
    nameAssign ["pp2"] ["pilot_phase_average"],
    nameAssign ["t"] ["pilot_phase_base", "int", "num_average"],
    nameAssign ["t2"] ["pp2"],
    nameAssign ["pp3"] ["np", "t", "t2"],
    nameAssign ["pilot_phase"] ["np", "pp1", "pp2", "pp3"],
    nameAssign ["pilot_pos"] ["np", "pilot_phase", "pilot_ins_ratio", "use_pilot_ratio"],
    nameAssign ["pilot_pos_new"] ["np", "pilot_phase", "pilot_ins_ratio", "use_pilot_ratio"],
    .loop (.seq (.set "l") (nameExpr ["phase_trace", "l", "np", "pilot_pos_new", "pilot_pos", "pilot_phaseN"])),
    nameAssign ["data_symbs"] ["rec_symbs", "np", "phase_trace"],
    nameExpr ["remove_phase_pilots"],
    .ite (nameBlock [
        nameAssign ["pilot_pos"] ["np", "data_symbs", "pilot_ins_ratio"],
        nameAssign ["data_symbs"] ["np", "data_symbs", "pilot_pos"]]) .skip,
    nameReturn ["data_symbs", "phase_trace"]]

end Qampy
