{"claims": [
{"property": "C01", "status": "proved", "theorems": ["Verif.Nproc.C01_get_after_history", "Verif.Nproc.C01_rejects_exactly_non_int", "Verif.Nproc.C01_environment_text_is_the_cap", "Verif.Nproc.C01_ineffective_calls_invisible", "Verif.Nproc.C01_text", "Verif.Nproc.C01_outside_cap_not_checked"], "note": "Every history of set_nproc/unset_nproc/get_nproc calls, and every text of the variable set from outside."},
{"property": "C02", "status": "proved", "theorems": ["Verif.Pool.C02_results_in_argument_order", "Verif.Pool.C02_every_schedule_ends"], "note": "Every schedule of an executor with any number of workers."},
{"property": "C03", "status": "proved", "theorems": ["Verif.Pool.C03_pool_equals_sequential_loop", "Verif.Pool.C03_first_failing_argument", "Verif.Pool.C03_outcome_independent_of_mode", "Verif.Pool.C03_unpack_failure_differs"], "note": "C03_unpack_failure_differs records the one case (argument that cannot be unpacked) where pool and sequential loop differ."},
{"property": "C04", "status": "proved", "theorems": ["Verif.Cache.C04_reads_independent_of_history", "Verif.Cache.C04_metric_sets"], "note": "Every dependency graph and every read history."},
{"property": "C05", "status": "partial", "theorems": ["Verif.Cache.C05_framesize_partial", "Verif.Cache.C05_fresh_request_partial", "Verif.Cache.C05_stale_after_assignment", "Verif.Cache.C05_refuted"], "note": "The full claim is false: framesize is cached per object and resolution and keeps the old shape after aspect is assigned (C05_stale_after_assignment)."},
{"property": "C06", "status": "proved", "theorems": ["Verif.Bytes.C06_round_trip", "Verif.Bytes.C06_length", "Verif.Bytes.C06_inferred_dimension", "Verif.Bytes.C06_wrong_size_rejected", "Verif.Bytes.C06_truncated_rejected"], "note": "Bit level float32 words; the conversion float64 to float32 is outside the model."},
{"property": "C07", "status": "proved", "theorems": ["Verif.Bytes.C07_file_accumulates"], "note": "Every history of wb/ab writes to a new file."},
{"property": "C08", "status": "proved", "theorems": ["Verif.Bytes.C08_grey_round_trip", "Verif.Bytes.C08_orientation", "Verif.Bytes.C08_colour_round_trip", "Verif.Bytes.C08_not_a_picture", "Verif.Bytes.C08_resolution_line"], "note": "Radiance's pvalue/getinfo are modelled by contract."},
{"property": "C09", "status": "proved", "theorems": ["Verif.Raypath.C09_entries", "Verif.Raypath.C09_unset", "Verif.Raypath.C09_idempotent"], "note": "Package directory without the separator character."},
{"property": "C10", "status": "proved", "theorems": ["Verif.IoMisc.C10_outcomes"], "note": "np.loadtxt and os.path.isfile are arbitrary functions."},
{"property": "C100", "status": "partial", "theorems": ["Verif.Gss.C100_partial", "Verif.Gss.C100_age_partial", "Verif.Gss.C100_refuted", "Verif.Gss.C100_young_partial", "Verif.Gss.C100_old", "Verif.Gss.C100_years"], "note": "the claim holds for an age up to 38 and fails for every age from 39, both proved; at age 10 the formula is the reference curve"},
{"property": "C101", "status": "partial", "theorems": ["Verif.Gss.C101_range", "Verif.Gss.C101_nonneg", "Verif.Gss.C101_ecc", "Verif.Gss.C101_partial", "Verif.Gss.C101_refuted"], "note": "range and sign for every width; monotone beyond 0.01122; refuted near the line of sight"},
{"property": "C102", "status": "proved", "theorems": ["Verif.Gss.C102_uniform", "Verif.Gss.C102_score"], "note": ""},
{"property": "C103", "status": "proved", "theorems": ["Verif.Gss.C103_geometry"], "note": ""},
{"property": "C104", "status": "partial", "theorems": ["Verif.Peak.C104_partial", "Verif.Peak.C104_luminance", "Verif.Peak.C104_refuted"], "note": "false: a partial sun takes the colour of its brightest ray; proved for full suns and peakc > 1, and for luminance always"},
{"property": "C105", "status": "partial", "theorems": ["Verif.Peak.C105_partial", "Verif.Peak.C105_refuted"], "note": "false for pixels larger than the sun; proved when no solid angle exceeds blurtol*peaka*peakc"},
{"property": "C106", "status": "partial", "theorems": ["Verif.Peak.C106_partial", "Verif.Peak.C106_refuted"], "note": "false: the mean is not normalised; length at most one and inside the cone is proved"},
{"property": "C107", "status": "partial", "theorems": ["Verif.Cmd.C107_partial", "Verif.Cmd.C107_avglum", "Verif.Cmd.C107_refuted"], "note": "false for luminance metrics with numbers close to those of Radiance; there the average luminance differs by at most 0.00101 of that of the channel sum"},
{"property": "C108", "status": "proved", "theorems": ["Verif.Cmd.C108_rows", "Verif.Cmd.C108_values", "Verif.Cmd.C108_color", "Verif.Cmd.C108_peak_off"], "note": "square images, views of one hemisphere"},
{"property": "C109", "status": "partial", "theorems": ["Verif.Map.C109_forward_partial", "Verif.Map.C109_outside", "Verif.Map.C109_reverse_partial", "Verif.Map.C109_errors", "Verif.Map.C109_refuted"], "note": "both directions proved for 180 degree images; C109_statement for all view angles is refuted (90 degrees)"},
{"property": "C11", "status": "partial", "theorems": ["Verif.IoMisc.C11_is_hdr_never_true", "Verif.IoMisc.C11_not_hdr_partial", "Verif.IoMisc.C11_refuted"], "note": "The claim is false: is_hdr compares text with bytes and never answers True."},
{"property": "C110", "status": "proved", "theorems": ["Verif.Map.C110_turn", "Verif.Map.C110_array", "Verif.Map.C110_shape", "Verif.Map.C110_order"], "note": "every pixel, angle and resolution"},
{"property": "C111", "status": "partial", "theorems": ["Verif.Map.C111_nearest_partial", "Verif.Map.C111_linear_partial", "Verif.Map.C111_refuted"], "note": "exact for nearest; the linear method shifts by half a pixel, so the statement is refuted"},
{"property": "C112", "status": "partial", "theorems": ["Verif.Map.C112_nearest_partial", "Verif.Map.C112_refuted"], "note": "exact for nearest; refuted for linear"},
{"property": "C113", "status": "partial", "theorems": ["Verif.Map.C113_rigid", "Verif.Map.C113_centre_partial", "Verif.Map.C113_pixels", "Verif.Map.C113_bad_centre", "Verif.Map.C113_refuted"], "note": "exact outside small caps at the zenith and for every whole-pixel centre up to 12000 pixels; refuted inside the caps"},
{"property": "C114", "status": "partial", "theorems": ["Verif.Map.C114_move_partial", "Verif.Map.C114_pixels", "Verif.Map.C114_refuted"], "note": "as C113"},
{"property": "C115", "status": "partial", "theorems": ["Verif.Map.C115_same_partial", "Verif.Map.C115_refuted"], "note": "the option has no geometric effect: both settings read the same position"},
{"property": "C116", "status": "partial", "theorems": ["Verif.Map.C116_uniform", "Verif.Map.C116_nearest_partial", "Verif.Map.C116_inside_partial", "Verif.Map.C116_fill", "Verif.Map.C116_refuted", "Verif.Map.C116_fill_range"], "note": "uniform images stay uniform; range kept by nearest, inside the grid and with a fill value; linear extrapolation breaks it"},
{"property": "C117", "status": "partial", "theorems": ["Verif.Shell.C117_lines_partial", "Verif.Shell.C117_empty", "Verif.Shell.C117_error_iff", "Verif.Shell.C117_refuted"], "note": "Refuted for lines with single quotes. Proved: nonempty lists of lines without single quotes arrive unchanged; an empty list adds one empty line; among texts without double quotes and backslashes, writing fails exactly when the number of single quotes is odd."},
{"property": "C118", "status": "partial", "theorems": ["Verif.Shell.C118_plain_partial", "Verif.Shell.C118_stdin", "Verif.Shell.C118_blank", "Verif.Shell.C118_refuted"], "note": "Refuted for paths with blanks, which become two arguments (proved for every such path). Proved for paths of characters that are not white space, quotes or backslashes; the empty path reads standard input."},
{"property": "C119", "status": "partial", "theorems": ["Verif.Names.C119_project_partial", "Verif.Names.C119_align_iff", "Verif.Names.C119_refuted"], "note": "Proved for the three projections. Refuted for align: the output is the input exactly when no rotation and no centre are given and the path ends in .hdr."},
{"property": "C12", "status": "partial", "theorems": ["Verif.Header.C12_last_value_partial", "Verif.Header.C12_tree_partial", "Verif.Header.C12_view", "Verif.Header.C12_format_never_found", "Verif.Header.C12_consecutive_lines_joined", "Verif.Header.C12_refuted"], "note": "Holds for the cleaned header, for the header as given when it is a tree without repetitions, and for the view always; false in general (FORMAT lines are removed first, consecutive lines with the same key are joined)."},
{"property": "C120", "status": "partial", "theorems": ["Verif.Names.C120_partial", "Verif.Names.C120_refuted"], "note": "Refuted for run.1/img. Proved whenever the file name has a dot or the directory has none."},
{"property": "C121", "status": "partial", "theorems": ["Verif.Names.C121_partial", "Verif.Names.C121_refuted"], "note": "Refuted for a.hdr and a.pic. Proved for paths with the same extension."},
{"property": "C122", "status": "partial", "theorems": ["Verif.Names.C122_partial", "Verif.Names.C122_target", "Verif.Names.C122_short_centre", "Verif.Names.C122_refuted"], "note": "Refuted for angles with the same whole degrees; targets of four number centres are not in the name. Proved for whole angles and centres of two numbers; shorter centres raise IndexError."},
{"property": "C123", "status": "partial", "theorems": ["Verif.Files.C123_partial", "Verif.Files.C123_can_end", "Verif.Files.C123_refuted", "Verif.Conv.C123_project", "Verif.Conv.C123_solid2ang", "Verif.Conv.C123_align"], "note": "Proved when outputs differ from each other and from all inputs, which the naming rules give for different images s.hdr whose names do not end like an output; refuted for an image and its own output in one batch."},
{"property": "C124", "status": "partial", "theorems": ["Verif.Files.C124_others_untouched", "Verif.Files.C124_failure_partial", "Verif.Files.C124_reading", "Verif.Files.C124_stdout", "Verif.Files.C124_own_input_lost", "Verif.Conv.C124_refuted"], "note": "Other files are never touched; the output is as before or empty; refuted with align on a header that cannot be cleaned."},
{"property": "C125", "status": "partial", "theorems": ["Verif.Conv.C125_uv2ang", "Verif.Conv.C125_ang2uv", "Verif.Conv.C125_rotate", "Verif.Conv.C125_clean_partial", "Verif.Conv.C125_solid", "Verif.Conv.C125_solid_read", "Verif.Conv.C125_refuted"], "note": "The exact view written is proved for every conversion of headers without single quotes; refuted: square images keep the angular view, equisolid ones get one along y."},
{"property": "C126", "status": "partial", "theorems": ["Verif.Conv.C126_partial", "Verif.Conv.C126_explicit", "Verif.Conv.C126_default", "Verif.Conv.C126_refuted"], "note": "Holds for angular views; the size of other views is ignored."},
{"property": "C127", "status": "partial", "theorems": ["Verif.Conv.C127_lines", "Verif.Conv.C127_partial", "Verif.Conv.C127_missing", "Verif.Conv.C127_refuted"], "note": "Exact lines proved; refuted: lines with the word RADIANCE are dropped."},
{"property": "C128", "status": "partial", "theorems": ["Verif.Conv.C128_partial", "Verif.Conv.C128_unused", "Verif.Conv.C128_default", "Verif.Conv.C128_missing", "Verif.Conv.C128_written", "Verif.Conv.C128_refuted"], "note": "False for views that are not angular; proved for angular ones."},
{"property": "C129", "status": "partial", "theorems": ["Verif.Header.C129_partial", "Verif.Header.C129_refuted"], "note": "False for repeated keys in a section; proved for headers that are trees without repetitions."},
{"property": "C13", "status": "proved", "theorems": ["Verif.Header.C13_only_last_view"], "note": "Non-interference: equality with the cleaned header of the input without these lines, plus one VIEW line."},
{"property": "C130", "status": "partial", "theorems": ["Verif.Textwrap.C130_wrap", "Verif.Textwrap.C130_iff", "Verif.Textwrap.C130_partial", "Verif.Textwrap.C130_refuted"], "note": "False: the exact condition is C130_iff; C130_partial gives one on the input lines."},
{"property": "C131", "status": "partial", "theorems": ["Verif.Textwrap.C131_wrap", "Verif.Textwrap.C131_entries", "Verif.Textwrap.C131_partial", "Verif.Textwrap.C131_refuted", "Verif.Textwrap.C131_one_more"], "note": "False for view lines and for very long keys; proved otherwise."},
{"property": "C132", "status": "partial", "theorems": ["Verif.Header.C132_partial", "Verif.Header.C132_refuted", "Verif.Header.rewrap"], "note": "False as stated: textwrap breaks words at hyphens (C132_refuted). Proved for headers of key=value lines whose entries can be joined again (Rejoins)."},
{"property": "C133", "status": "partial", "theorems": ["Verif.Header.C133_partial", "Verif.Header.C133_refuted"], "note": "False as stated: C133_refuted. Proved for headers where the lines of a key stand together."},
{"property": "C134", "status": "proved", "theorems": ["Verif.SmoothCmd.C134_density", "Verif.SmoothCmd.C134_raises"], "note": "exact reals; widths of 0 are refused by gaussian_kde and excluded"},
{"property": "C135", "status": "partial", "theorems": ["Verif.SmoothCmd.C135_partial", "Verif.SmoothCmd.C135_width", "Verif.SmoothCmd.C135_default", "Verif.SmoothCmd.C135_sigma", "Verif.SmoothCmd.C135_refuted", "Verif.SmoothCmd.cov_pairs"], "note": "proved for y columns; false for densities: the default width of a density is variance * n^-0.2, so it depends on the unit of x"},
{"property": "C136", "status": "proved", "theorems": ["Verif.SmoothCmd.C136_shift"], "note": "both branches, given and default width"},
{"property": "C137", "status": "partial", "theorems": ["Verif.SmoothCmd.C137_partial", "Verif.SmoothCmd.C137_refuted"], "note": "proved for densities and positive widths; false when all x are equal, where the first row is printed"},
{"property": "C138", "status": "partial", "theorems": ["Verif.SmoothCmd.C138_partial", "Verif.SmoothCmd.C138_row", "Verif.SmoothCmd.C138_refused", "Verif.SmoothCmd.C138_empty", "Verif.SmoothCmd.C138_refuted"], "note": "proved for two or more rows; false for one row, which is read as a column"},
{"property": "C139", "status": "proved", "theorems": ["Verif.SmoothCmd.C139_points", "Verif.SmoothCmd.C139_given", "Verif.SmoothCmd.C139_runs", "Verif.SmoothCmd.C139_none"], "note": "for runs that succeed; C139_runs shows they do for positive widths"},
{"property": "C14", "status": "proved", "theorems": ["Verif.Header.C14_nothing_lost", "Verif.Header.C14_alphabet"], "note": "textwrap is a contract (pieces concatenate to the text, short text unbroken)."},
{"property": "C140", "status": "proved", "theorems": ["Verif.SmoothCmd.C140_values", "Verif.SmoothCmd.C140_bounds"], "note": "exact reals: weights do not underflow"},
{"property": "C141", "status": "proved", "theorems": ["Verif.Init.C141_documented", "Verif.Init.C141_refused", "Verif.Init.C141_letter", "Verif.Init.C141_stable"], "note": ""},
{"property": "C142", "status": "partial", "theorems": ["Verif.Init.C142_partial", "Verif.Init.C142_refuted"], "note": "holds for the angular and square projections and for equisolid images of views other than 360 degrees; false for the equisolid projection of a 360 degree view"},
{"property": "C143", "status": "partial", "theorems": ["Verif.Init.C143_mask", "Verif.Init.C143_solid_mask", "Verif.Init.C143_circle_partial", "Verif.Init.C143_refuted"], "note": "membership, order and the boolean form for every view; the circle criterion for angular images of ViewMapper with directions clear of the axis tolerance; refuted for nearly vertical directions, where a narrow view leaves out its own centre pixel"},
{"property": "C144", "status": "proved", "theorems": ["Verif.Init.C144_channels"], "note": ""},
{"property": "C145", "status": "partial", "theorems": ["Verif.Init.C145_header_partial", "Verif.Init.C145_refuted"], "note": "holds for ViewMapper including 360 degree views; false for SolidViewMapper, whose default header says -vta"},
{"property": "C146", "status": "proved", "theorems": ["Verif.Init.C146_square"], "note": ""},
{"property": "C147", "status": "partial", "theorems": ["Verif.Init.C147_same", "Verif.Init.C147_pixel_round_trip", "Verif.Init.C147_image", "Verif.Init.C147_behind_partial", "Verif.Init.C147_refuted"], "note": "views up to 180 degrees proved (round trip up to two million pixels per degree); for 360 degree views directions within 45 degrees of the back give nan"},
{"property": "C148", "status": "partial", "theorems": ["Verif.Init.C148_flat_partial", "Verif.Init.C148_index_partial", "Verif.Init.C148_refuted"], "note": "vectors and mask of the flattened image proved; indexing the image with the mask raises IndexError for two or more columns"},
{"property": "C149", "status": "proved", "theorems": ["Verif.Map.C149_bound", "Verif.Map.C149_centre"], "note": "views up to 180 degrees; resolutions below four pixels only for views up to 90 degrees"},
{"property": "C15", "status": "partial", "theorems": ["Verif.Header.C15_accepted_partial", "Verif.Header.C15_only_index_error", "Verif.Header.C15_not_always_accepted", "Verif.Header.C15_refuted"], "note": "False as stated: a leading continuation line raises IndexError."},
{"property": "C150", "status": "partial", "theorems": ["Verif.Gss.C150_odd_partial", "Verif.Gss.C150_even_partial", "Verif.Gss.C150_refuted"], "note": "proved for odd windows; for even windows all of the correction goes to one of the four central pixels"},
{"property": "C151", "status": "partial", "theorems": ["Verif.Gss.C151_scale_partial", "Verif.Gss.C151_refuted"], "note": "the kernel is smaller by the ratio of the chord factors, about 0.9 for the default 10 degree window of a 180 degree image"},
{"property": "C152", "status": "partial", "theorems": ["Verif.Textwrap.C152_partial", "Verif.Textwrap.C152_refuted"], "note": "false: a long line without '=' that is wrapped behind a colon makes the second cleaning raise IndexError; proved for headers without blank lines and leading dots whose long entries have a key"},
{"property": "C153", "status": "proved", "theorems": ["Verif.Gss.C153_area", "Verif.Gss.C153_scale", "Verif.Gss.C153_exposure_size", "Verif.Gss.C153_exposure", "Verif.Gss.C153_half_dark", "Verif.Gss.C153_adapted", "Verif.Gss.C153_bright"], "note": "exact reals; the area for ages up to 56, where the diameter is positive"},
{"property": "C154", "status": "partial", "theorems": ["Verif.Gss.C154_partial", "Verif.Gss.C154_stretched", "Verif.Gss.C154_refuted"], "note": "proved for views of 180 degrees; false for smaller views, where angles are stretched as if the view showed 180 degrees"},
{"property": "C155", "status": "partial", "theorems": ["Verif.Files.C155_partial", "Verif.Conv.C155_torn", "Verif.Conv.C155_refuted"], "note": "proved when no conversion of the batch writes the input; false otherwise"},
{"property": "C156", "status": "proved", "theorems": ["Verif.Header.C156_depth", "Verif.Header.C156_clean", "Verif.Header.C156_same", "Verif.Header.insetText_all"], "note": "insetText_all: every text of spaces and tabs is an inset of the statement"},
{"property": "C157", "status": "proved", "theorems": ["Verif.Gss.C157_degrees", "Verif.Gss.C157_score", "Verif.Gss.C157_brighter"], "note": ""},
{"property": "C158", "status": "proved", "theorems": ["Verif.Map.C158_limit", "Verif.Map.C158_area", "Verif.Map.C158_cosine", "Verif.Gss.C158_eye", "Verif.Gss.C158_eye_uniform"], "note": "angular images of ViewMapper over the reals"},
{"property": "C159", "status": "partial", "theorems": ["Verif.Cmd.C159_illum", "Verif.Cmd.C159_average", "Verif.Cmd.C159_uniform", "Verif.Cmd.C159_partial", "Verif.Cmd.C159_low", "Verif.Cmd.C159_refuted", "Verif.Cmd.C159_command"], "note": "the limits are proved for every view; they are those of the scene for 180 degrees, and too low for every narrower view (C159_low, C159_refuted)"},
{"property": "C16", "status": "partial", "theorems": ["Verif.Header.C16_entries_partial", "Verif.Header.C16_sections_iff", "Verif.Header.C16_misnested", "Verif.Header.C16_tree_partial", "Verif.Header.C16_refuted"], "note": "False as stated; exact condition proved for regular indentation, and the whole result for trees without repetitions."},
{"property": "C160", "status": "proved", "theorems": ["Verif.Metric.C160_between", "Verif.Metric.C160_uniform"], "note": "on a constructed metric set; avglum when the area is the sum of the solid angles (the other case is C159)"},
{"property": "C161", "status": "proved", "theorems": ["Verif.Metric.C161_weight", "Verif.Metric.C161_bounds", "Verif.Metric.C161_one", "Verif.Metric.C161_relative", "Verif.Metric.C161_absolute", "Verif.Metric.C161_uniform", "Verif.Metric.C161_units", "Verif.Metric.C161_dgp"], "note": "on a constructed metric set; bounds for the Guth index"},
{"property": "C162", "status": "proved", "theorems": ["Verif.Gss.C162_open", "Verif.Gss.C162_disc", "Verif.Gss.C162_flux", "Verif.Gss.C162_pupil", "Verif.Gss.C162_symmetric", "Verif.Gss.C162_half", "Verif.Gss.C162_above", "Verif.Gss.C162_adapted", "Verif.Gss.C162_uniform"], "note": "Pupil widths are positive up to an age of 126, which the disc law assumes. The closed form of the width is for age ten. The filter is under the contract Averaging."},
{"property": "C163", "status": "proved", "theorems": ["Verif.Fp.C163_position", "Verif.Fp.C163_round_trip", "Verif.Fp.C163_rotations", "Verif.Fp.C163_mapper", "Verif.Fp.C163_exact", "Verif.Fp.C163_binary64"], "note": "Contract Arith.Ok: relative errors of the operations, no overflow or underflow; round to nearest even meets it. viewangle * chordfactor at most 180.0001 as stored. 360 degree views are not covered."},
{"property": "C164", "status": "partial", "theorems": ["Verif.Fp.C164_bins_partial", "Verif.Fp.C164_centre", "Verif.Fp.C164_power_of_two", "Verif.Fp.C164_exact", "Verif.Fp.C164_refuted", "Verif.Fp.C164_idx_partial", "Verif.Fp.C164_full_jitter", "Verif.Fp.C164_idx_refuted", "Verif.Fp.C164_rows"], "note": "Offsets that leave a margin of rounding to the border of the cell. False for offset 0 in binary64 (side 23) and for a jitter rate of one."},
{"property": "C165", "status": "partial", "theorems": ["Verif.Fp.C165_illum", "Verif.Fp.C165_order", "Verif.Fp.C165_avglum", "Verif.Fp.C165_gcr", "Verif.Fp.C165_gcr_ge", "Verif.Fp.C165_backlum_partial", "Verif.Fp.C165_refuted"], "note": "Errors proved for every order of the additions under the contract of C163. False for the sign of the background luminance, which is a difference of two sums. The selection of rays is that of the constructed set; no fused operations."},
{"property": "C166", "status": "proved", "theorems": ["Verif.Fp.C166_view", "Verif.Fp.C166_ray", "Verif.Fp.C166_unit"], "note": "One hemisphere (aspect 1); contract Arith.Ok, met by binary64."},
{"property": "C167", "status": "proved", "theorems": ["Verif.Fp.C167_norm", "Verif.Fp.C167_norm1", "Verif.Fp.C167_pitch", "Verif.Fp.C167_tau", "Verif.Fp.C167_radians", "Verif.Fp.C167_clip_needed", "Verif.Fp.C167_raw"], "note": "binary64 with unbounded exponent; squares summed from left to right."},
{"property": "C168", "status": "partial", "theorems": ["Verif.Pool.C168_once_partial", "Verif.Pool.C168_cap", "Verif.Pool.C168_returned", "Verif.Pool.C168_all_run", "Verif.Pool.C168_refuted", "Verif.Pool.C168_loop", "Verif.Pool.C168_modes"], "note": "All clauses hold under every schedule except the last: calls already submitted can begin after the exception has been raised, and all of them run in the end (C168_refuted, C168_all_run)."},
{"property": "C169", "status": "partial", "theorems": ["Verif.Metric.C169_numbers_partial", "Verif.Metric.C169_contrast", "Verif.Metric.C169_weighted", "Verif.Metric.C169_empty", "Verif.Metric.C169_avgraylum", "Verif.Metric.C169_sources", "Verif.Metric.C169_dgp", "Verif.Metric.C169_ugr", "Verif.Metric.C169_black", "Verif.Metric.C169_dark_surround", "Verif.Metric.C169_behind", "Verif.Metric.C169_refuted"], "note": "False for dark scenes (C169_refuted). Proved: the exact conditions under which each metric is a number, infinite or nan; all are numbers when light arrives, part of it from the background, and a ray lies in the task area."},
{"property": "C17", "status": "partial", "theorems": ["Verif.ViewHdr.C17_round_trip_partial", "Verif.ViewHdr.C17_refuted", "Verif.ViewHdr.C17_img_size", "Verif.ViewHdr.C17_example", "Verif.ViewHdr.C17_view_file"], "note": "round trip proved for the angular projection under the number format contract NumOk, for any header with the view line last; C17_refuted: other projections written by header() are not read by hdr2vm"},
{"property": "C170", "status": "partial", "theorems": ["Verif.Peak.C170_agree_partial", "Verif.Peak.C170_shape", "Verif.Peak.C170_count", "Verif.Peak.C170_none", "Verif.Peak.C170_refuted"], "note": "The full statement is false (C170_refuted): no bright pixel gives zeros and None. Proved: the forms agree and conserve energy with a bright pixel, the exact shape and number of rays in every case, the exact result without one."},
{"property": "C171", "status": "partial", "theorems": ["Verif.Metric.C171_compass_partial", "Verif.Metric.C171_unweighted_partial", "Verif.Metric.C171_colour_partial", "Verif.Metric.C171_refuted"], "note": "The full statement is false for vertical views (C171_refuted). Proved for every direction at least 0.002 degrees from vertical, for plain and for colour sets, and for the metrics without position index for every direction; rays across the edge of the view may not lie within 0.002 degrees of the level through the view direction unless exactly in it."},
{"property": "C172", "status": "partial", "theorems": ["Verif.Metric.C172_cut_partial", "Verif.Metric.C172_colour_partial", "Verif.Metric.C172_refuted"], "note": "The full statement is false with the solid angle correction, which starts at 101 rays (C172_refuted). Proved for every view, set of rays and way of cutting when solid angles are used as given, for plain sets and for colour sets with the irradiance of each channel."},
{"property": "C173", "status": "partial", "theorems": ["Verif.Live.C173_snapshot_partial", "Verif.Live.C173_snapshot_full_partial", "Verif.Live.C173_refuted", "Verif.Live.C173_mixed"], "note": "Refuted as stated: a metric set keeps the caller's mapper (turning it afterwards turns the illuminance, C173_refuted), and for 360 degree views the caller's luminances and solid angles (C173_mixed: 18 lux read together with average luminance 0). Proved for every program that leaves the mapper alone (view < 360) or mapper, luminances and solid angles (360). Formulas are arbitrary functions over the code's dependency graph."},
{"property": "C174", "status": "partial", "theorems": ["Verif.Live.C174_exact_partial", "Verif.Live.C174_unread_partial", "Verif.Live.C174_corrected", "Verif.Live.C174_refuted", "Verif.Live.C174_evicted"], "note": "Refuted as stated: a metric that was read is remembered across assignments. Proved: reads are current if and only if everything remembered still is; and always before the first read of a set without corrected solid angles (with correction the constructor itself reads the angles, which then stay: C174_corrected)."},
{"property": "C175", "status": "partial", "theorems": ["Verif.Map.C175_new", "Verif.Map.C175_directions", "Verif.Map.C175_own_direction", "Verif.Map.C175_exact_partial", "Verif.Map.C175_refuted"], "note": "Directions: proved for all histories (the object is equal in every attribute). Directions and aspects: exact; refuted as stated, since assigning aspect 2 does not make the opposite view. The attribute bbox is not followed (it is read by no method)."},
{"property": "C176", "status": "partial", "theorems": ["Verif.Pipes.C176_partial", "Verif.Pipes.C176_arrays_partial", "Verif.Pipes.C176_only", "Verif.Pipes.C176_hangs", "Verif.Pipes.C176_channels", "Verif.Pipes.C176_short", "Verif.Pipes.C176_surplus", "Verif.Pipes.C176_four_channels", "Verif.Pipes.C176_refuted"], "note": "False for arrays with a number of channels other than three: exact behaviour given (never returns, incomplete file, schedule dependent exception). Proved for two dimensional and three channel arrays under every fair schedule and all pipe capacities. The programs are arbitrary filters that read what they announce."},
{"property": "C177", "status": "partial", "theorems": ["Verif.Pipes.C177_partial", "Verif.Pipes.C177_hangs", "Verif.Pipes.C177_header", "Verif.Pipes.C177_refuted"], "note": "Pixel readers end exactly when the messages on the error stream fit into its pipe; refuted otherwise. Reading headers is proved to end always."},
{"property": "C178", "status": "partial", "theorems": ["Verif.Fp.C178_upper", "Verif.Fp.C178_both_partial", "Verif.Fp.C178_patches", "Verif.Fp.C178_binary64", "Verif.Fp.C178_exact", "Verif.Fp.C178_edge", "Verif.Fp.C178_refuted"], "note": "Round trips in rounded arithmetic; the strip of 1e-14 at the edge of the lower square is excluded because the claim fails there (C178_edge, C178_refuted)."},
{"property": "C179", "status": "proved", "theorems": ["Verif.Geo.C179_near", "Verif.Geo.C179_back", "Verif.Geo.C179_join", "Verif.Geo.C179_horizon"], "note": "Exact real arithmetic."},
{"property": "C18", "status": "proved", "theorems": ["Verif.IoMisc.C18_lum_is_179_rad", "Verif.IoMisc.C18_linear", "Verif.IoMisc.C18_monotone", "Verif.IoMisc.C18_grey", "Verif.IoMisc.C18_default_weights"], "note": "Exact real arithmetic, any number of channels."},
{"property": "C180", "status": "proved", "theorems": ["Verif.Fp.C180_direction", "Verif.Fp.C180_sky"], "note": "Default axes, normalize=False; no overflow or underflow in the contract."},
{"property": "C181", "status": "partial", "theorems": ["Verif.Quant.C181_together", "Verif.Quant.C181_empty", "Verif.Quant.C181_any_refuted", "Verif.Smooth.C181_refused", "Verif.Smooth.C181_point", "Verif.Smooth.C181_exists", "Verif.Smooth.C181_between_partial", "Verif.Smooth.C181_returns_partial", "Verif.Smooth.C181_places_partial", "Verif.Smooth.C181_features", "Verif.Smooth.C181_refuted"], "note": "Holds for one feature. With several features a median or a single quantile raises IndexError although the documentation allows it (C181_refuted). Several quantiles in one call equal single calls for thresholds of at least 0; with a negative threshold one quantile can change the others (C181_any_refuted)."},
{"property": "C182", "status": "partial", "theorems": ["Verif.Gauss.C182_filter", "Verif.Gauss.C182_enlarge", "Verif.Gauss.C182_same", "Verif.Gauss.C182_box_partial", "Verif.Gauss.C182_refuted"], "note": "Proved for the Gaussian with any radius, any number of axes and any sizes, and for the box filter of odd size. The full statement is false: an even box size (radius 2) is not centred and changes the mean (C182_refuted)."},
{"property": "C183", "status": "partial", "theorems": ["Verif.Gauss.C183_averaging", "Verif.Gauss.C183_total", "Verif.Gauss.C183_movement", "Verif.Gauss.C183_convolve", "Verif.Gauss.C183_psf_odd_partial", "Verif.Gauss.C183_point", "Verif.Gauss.C183_point_odd_partial", "Verif.Gauss.C183_point_even_partial", "Verif.Gauss.C183_spread", "Verif.Gauss.C183_refuted"], "note": "The contract of gaussian_filter and the totals are proved for all images; the point spread keeps light and place for windows with an odd number of pixels. For even windows a point is displaced (C183_refuted), so the full statement is false."},
{"property": "C184", "status": "partial", "theorems": ["Verif.Map.C184_node", "Verif.Map.C184_self", "Verif.Map.C184_nearest_partial", "Verif.Map.C184_linear_partial", "Verif.Map.C184_even", "Verif.Map.C184_refuted"], "note": "With nearest for all views and images; with linear interpolation where the position read is not in the outer half of a border pixel. Elsewhere values are extrapolated and the claim is false (C184_refuted)."},
{"property": "C185", "status": "partial", "theorems": ["Verif.Retina.C185_measured_partial", "Verif.Retina.C185_range", "Verif.Retina.C185_continuous", "Verif.Retina.C185_peak", "Verif.Retina.C185_binocular", "Verif.Retina.C185_refuted", "Verif.Retina.C185_fovea_refuted"], "note": "Measurements of at least one cell. False for the outermost inferior measurement (0.68 becomes 1) and for agreement at the fovea."},
{"property": "C186", "status": "proved", "theorems": ["Verif.Conv.C186_uv2ang", "Verif.Conv.C186_ang2uv", "Verif.Conv.C186_solid", "Verif.Conv.C186_rotate", "Verif.Conv.C186_clean", "Verif.Conv.C186_missing"], "note": "every list of states seen by the reading processes"},
{"property": "C187", "status": "partial", "theorems": ["Verif.Map.C187_angular", "Verif.Map.C187_planar", "Verif.Map.C187_window", "Verif.Map.C187_dots_partial", "Verif.Map.C187_square_partial", "Verif.Map.C187_total", "Verif.Map.C187_uniform", "Verif.Map.C187_overlap", "Verif.Map.C187_corner", "Verif.Map.C187_channels", "Verif.Map.C187_planes", "Verif.Map.C187_planes_planar", "Verif.Map.C187_refuted"], "note": "squares for dots that do not overlap on a dark image away from the border; false otherwise; channels proved in full"},
{"property": "C188", "status": "partial", "theorems": ["Verif.Map.C188_pixel", "Verif.Map.C188_seen_partial", "Verif.Map.C188_back", "Verif.Map.C188_refuted"], "note": "views of up to 180 degrees; false for 360 degree views"},
{"property": "C189", "status": "partial", "theorems": ["Verif.Cmd.C189_lengths", "Verif.Cmd.C189_aligned", "Verif.Cmd.C189_square_partial", "Verif.Cmd.C189_ends_partial", "Verif.Cmd.C189_both", "Verif.Cmd.C189_both_small", "Verif.Cmd.C189_rectangle", "Verif.Cmd.C189_dark", "Verif.Cmd.C189_refuted"], "note": "square pictures of one hemisphere; false for all others"},
{"property": "C19", "status": "partial", "theorems": ["Verif.IoMisc.C19_decodes_partial", "Verif.IoMisc.C19_monotone_partial", "Verif.IoMisc.C19_uint8_wraps", "Verif.IoMisc.C19_refuted"], "note": "False for uint8 arrays with exponent byte below 128 (C19_uint8_wraps)."},
{"property": "C190", "status": "partial", "theorems": ["Verif.Tab.C190_digits", "Verif.Tab.C190_order", "Verif.Tab.C190_exact", "Verif.Tab.C190_special", "Verif.Tab.C190_table_partial", "Verif.Tab.C190_refuted"], "note": "cells for every number; the table for image names without tabs and newlines, false otherwise; irradiance has three cells per line under one name (C81)"},
{"property": "C191", "status": "partial", "theorems": ["Verif.GssSave.C191_partial", "Verif.GssSave.C191_beside", "Verif.GssSave.C191_outdir", "Verif.GssSave.C191_not_itself", "Verif.GssSave.C191_both", "Verif.GssSave.C191_refuted"], "note": "when the names of the responses differ from each other and from the images; false otherwise, and false for gss together with gssnb"},
{"property": "C192", "status": "partial", "theorems": ["Verif.ViewHdr.C192_exact", "Verif.ViewHdr.C192_none", "Verif.ViewHdr.C192_partial", "Verif.ViewHdr.C192_foreign", "Verif.ViewHdr.C192_cannot_open", "Verif.ViewHdr.C192_refuted", "Verif.ViewHdr.C192_line_end"], "note": "exact rule for every header; the claim holds when no line behind the own view has the marker of an angular view; false for older and indented views"},
{"property": "C193", "status": "partial", "theorems": ["Verif.Map.C193_partial", "Verif.Map.C193_cut", "Verif.Map.C193_refuted"], "note": "with nearest and for the own view; false with linear interpolation, where fractions are cut"},
{"property": "C194", "status": "partial", "theorems": ["Verif.Map.C194_partial", "Verif.Map.C194_refuted"], "note": "Refuted as stated (75 by 75 pixels); proved: at every resolution the value comes from at most one row and one column away, and outside the circle is zero."},
{"property": "C195", "status": "partial", "theorems": ["Verif.Map.C195_partial", "Verif.Map.C195_refuted"], "note": "Refuted as stated (4 by 4 cells, corners black); proved: at every resolution at most one row and one column away, or zero in the outermost rows and columns only."},
{"property": "C196", "status": "partial", "theorems": ["Verif.Fp.C196_uv", "Verif.Fp.C196_pixel_partial", "Verif.Fp.C196_exact", "Verif.Fp.C196_refuted"], "note": "False for every box: a box of size 1 at 2^60 loses its pixels in binary64 (C196_refuted). Proved when (distance of the box from the origin in box sizes + 1) times the resolution is at most 5e13."},
{"property": "C197", "status": "partial", "theorems": ["Verif.Quant.C197_split_partial", "Verif.Quant.C197_first", "Verif.Quant.C197_refuted"], "note": "False: the weight of the smallest value is never read (C197_refuted, C197_first). Proved: the weights of the other values are split, leaving out the nearest value above."},
{"property": "C198", "status": "partial", "theorems": ["Verif.ViewHdr.C198_iff", "Verif.ViewHdr.C198_size_partial", "Verif.ViewHdr.C198_one", "Verif.ViewHdr.C198_refuted"], "note": "False for names with blanks (C198_refuted); the names that work are characterised (C198_iff), every name without blanks and every orientation proved."},
{"property": "C199", "status": "proved", "theorems": ["Verif.Geo.C199_square", "Verif.Geo.C199_hemisphere", "Verif.Geo.C199_sphere", "Verif.Geo.C199_cell", "Verif.Geo.C199_patch", "Verif.Geo.C199_average", "Verif.Geo.C199_mean", "Verif.Geo.C199_cosine", "Verif.Geo.C199_cells"], "note": "exact reals; the integral identities hold for every function, measurable or not, as lower Lebesgue integrals"},
{"property": "C20", "status": "proved", "theorems": ["Verif.Geo.C20_norm_unit", "Verif.Geo.C20_norm1", "Verif.Geo.C20_norm_scale", "Verif.Geo.C20_norm_idem"], "note": "exact reals; norm of the zero vector is NaN in numpy and excluded"},
{"property": "C200", "status": "proved", "theorems": ["Verif.Map.C200_mean", "Verif.Map.C200_light", "Verif.Map.convert_near", "Verif.Map.convert_back"], "note": "the input images exist for every scene (pictures_exist, samples_exist)"},
{"property": "C201", "status": "proved", "theorems": ["Verif.Map.C201_light", "Verif.Map.C201_mean", "Verif.Map.C201_photo", "Verif.Map.circle_limit", "Verif.Map.photo_exists", "Verif.Map.angle_exists", "Verif.Map.rim_small", "Verif.Map.edge_small"], "note": "Both directions, both interpolations, 180 degrees. C109 records that other angles do not keep the light."},
{"property": "C202", "status": "proved", "theorems": ["Verif.Map.C202_pixels", "Verif.Map.C202_turn", "Verif.Map.C202_kept", "Verif.Map.cap_spin", "Verif.Map.C52_world_pixel"], "note": "One pass (rotate_first=True, the default); C110_order gives rotate_first=False as two passes."},
{"property": "C203", "status": "partial", "theorems": ["Verif.Pool.C203_outcome", "Verif.Pool.C203_bounded", "Verif.Pool.C203_ends_partial", "Verif.Pool.C203_submitted_partial", "Verif.Pool.C203_alive_partial", "Verif.Pool.C203_refuted"], "note": "Outcomes and the bound on schedules hold for every schedule and every death. That the call always comes back holds with an executor that closes under its lock, and with the older one if all arguments were submitted before the pool closes or no worker dies; it is refuted for the older one, where a submission that has passed the check is entered into a pool that nobody manages any more. Marking the futures is one step of the model."},
{"property": "C204", "status": "partial", "theorems": ["Verif.Shared.C204_results_partial", "Verif.Shared.C204_one_partial", "Verif.Shared.C204_caller", "Verif.Shared.C204_refuted_threads", "Verif.Shared.C204_refuted_processes"], "note": "The full claim is false in both modes (a function that numbers its calls). Proved when results do not depend on what other calls leave behind, for every interleaving of steps, and for one forked worker when arguments are not changed. Results are values; a returned object that later calls change is not modelled."},
{"property": "C205", "status": "proved", "theorems": ["Verif.Map.C205_pixels", "Verif.Map.C205_light"], "note": "Exact real arithmetic; interpolation as in C184. The sums are stated for views inside the picture; the pixel statement has no such condition."},
{"property": "C206", "status": "partial", "theorems": ["Verif.Fp.C206_refuted", "Verif.Fp.C206_angle", "Verif.Fp.C206_angle_sharp", "Verif.Fp.C206_mask_partial", "Verif.Fp.C206_mask_sharp_partial", "Verif.Fp.C206_pixels_partial"], "note": "The exact statement is refuted in double precision (angles below about 1e-8 are computed as zero). Proved: the mask is right for every direction that is not within 3e-7 radians of the rim (3e-11 away from the axis, 2e-6 for rays of pixels)."},
{"property": "C207", "status": "proved", "theorems": ["Verif.Rgbe.C207_channel", "Verif.Rgbe.C207_grey", "Verif.Rgbe.C207_light", "Verif.Rgbe.C207_black", "Verif.Rgbe.C207_again", "Verif.Rgbe.C207_order", "Verif.Rgbe.C207_luminance"], "note": "The pixel store is Radiance's and part of the trusted base."},
{"property": "C208", "status": "partial", "theorems": ["Verif.Rgbe.C208_refuted", "Verif.Rgbe.C208_partial"], "note": "Refuted for pixels with a mantissa of zero next to a channel that is not black; proved for all other pixels."},
{"property": "C209", "status": "partial", "theorems": ["Verif.Fp.C209_refuted", "Verif.Fp.C209_axis_partial", "Verif.Fp.C209_upper_partial", "Verif.Fp.C209_sharp_partial", "Verif.Fp.C209_binary64_partial", "Verif.Fp.C209_reversed"], "note": "Refuted in double precision: (2^-26, 0, -1) makes the view look up. Proved: within 1e-4 for all directions 4e-7 rad off straight down (2e-7 outside a cone of 0.01 degrees, 2e-11 off the vertical), for every vector in binary64 outside the exception, and the view is reversed in the exception."},
{"property": "C21", "status": "proved", "theorems": ["Verif.Geo.C21_uv2xyz_sphere"], "note": "every axis permutation, both signs, whatever np.empty held before"},
{"property": "C210", "status": "partial", "theorems": ["Verif.Fp.C210_refuted", "Verif.Fp.C210_tp_partial", "Verif.Fp.C210_aa_partial", "Verif.Fp.C210_altitude_partial", "Verif.Fp.C210_nadir"], "note": "Refuted where z is rounded to -1 (comes back as straight up, C210_nadir). Proved: round trips to 2e-7 outside a cone of 0.01 degrees around straight down (for altitude and azimuth: around the vertical), to 2e-11 off the vertical; altitude to 2e-12 degrees."},
{"property": "C211", "status": "partial", "theorems": ["Verif.Metric.C211_averages", "Verif.Metric.C211_contrast", "Verif.Metric.C211_pwcontrast", "Verif.Metric.C211_sources_partial", "Verif.Metric.C211_ugr_partial", "Verif.Metric.C211_dgp_partial", "Verif.Metric.C211_saved_partial", "Verif.Metric.C211_build_partial", "Verif.Metric.C211_refuted"], "note": "Averages and contrast for every change of luminances. Glare ratings (dgp with and without the low light correction) when no ray lies at the threshold; without that the statement is refuted (0.4 per cent takes ugr from 0 to 28). Carried over the constructor when no ray lies at ten times the average, the threshold for strays."},
{"property": "C212", "status": "partial", "theorems": ["Verif.Quant.C212_equal_partial", "Verif.Quant.C212_apart_partial", "Verif.Quant.C212_affine", "Verif.Quant.C212_refuted"], "note": "Shift and scale in general. Small changes of values: with equal weights, or values more than 2 delta apart; refuted otherwise (a jump for every delta)."},
{"property": "C213", "status": "partial", "theorems": ["Verif.Quant.C213_equal_partial", "Verif.Quant.C213_refuted"], "note": "Equal weights, for quantiles not within 1.001e-5 of the ends (or at them); refuted for unequal weights."},
{"property": "C214", "status": "proved", "theorems": ["Verif.Quant.C214_together"], "note": ""},
{"property": "C215", "status": "partial", "theorems": ["Verif.Fp.C215_range", "Verif.Fp.C215_fallback", "Verif.Fp.C215_ignored", "Verif.Fp.C215_error_partial", "Verif.Fp.C215_refuted"], "note": "Range, divisor and fallback proved for binary64 with an unbounded exponent. Agreement with the exact quantile up to rounding of the sum of weights times the steepest step per weight, for q not within 1.001e-5 of 1; agreement whatever the weights is refuted (weights below 2^-54 of the first one are ignored altogether)."},
{"property": "C216", "status": "partial", "theorems": ["Verif.Quant.C216_lipschitz_partial", "Verif.Quant.C216_refuted"], "note": "Lipschitz in q except in the band |q - 1| <= 1.001e-5, where it is refuted"},
{"property": "C217", "status": "proved", "theorems": ["Verif.Cull.C217_first_come", "Verif.Cull.C217_later", "Verif.Cull.C217_again", "Verif.Cull.C217_batches", "Verif.Cull.C217_moved", "Verif.Cull.C217_duplicates"], "note": "exact distances; scipy's neighbour lists in increasing order as in C38"},
{"property": "C218", "status": "partial", "theorems": ["Verif.Cull.C218_double_partial", "Verif.Cull.C218_refuted"], "note": "refuted as stated; true for tolerances a factor of two apart"},
{"property": "C219", "status": "proved", "theorems": ["Verif.Fp.C219_first_come", "Verif.Fp.C219_spaced", "Verif.Fp.C219_covered"], "note": "unbounded exponent (no underflow of the squares); skipping branches of the tree is taken not to change which pairs are found"},
{"property": "C22", "status": "proved", "theorems": ["Verif.Geo.C22_uv2xy_radius", "Verif.Geo.C22_uv2xy_circles", "Verif.Geo.C22_uv2xy_disk", "Verif.Geo.C22_lift_back"], "note": ""},
{"property": "C220", "status": "partial", "theorems": ["Verif.Quant.C220_weights", "Verif.Quant.C220_numbers", "Verif.Quant.C220_number", "Verif.Quant.C220_range", "Verif.Quant.C220_refuted"], "note": "NaN weights are left out; NaN values are refuted to be, and it is said exactly which quantiles they spoil"},
{"property": "C221", "status": "partial", "theorems": ["Verif.Fp.C221_number", "Verif.Fp.C221_chord", "Verif.Fp.C221_angle_partial", "Verif.Fp.C221_refuted", "Verif.Fp.C221_all_partial"], "note": "chords come back; angles come back up to 2^-53 pi (1 + 2 tan(theta/2)), refuted near 180 degrees; sine and arc sine taken as correctly rounded"},
{"property": "C222", "status": "partial", "theorems": ["Verif.Fp.C222_number", "Verif.Fp.C222_error_partial", "Verif.Fp.C222_refuted", "Verif.Fp.C222_sharp_partial", "Verif.Fp.C222_degree_partial"], "note": "to 1e-7 for all vectors, 1e-9 refuted; the arc cosine itself is not rounded, the exponent is unbounded"},
{"property": "C223", "status": "proved", "theorems": ["Verif.Fp.C223_mirror", "Verif.Fp.C223_back", "Verif.Fp.C223_mask"], "note": "binary64 with an unbounded exponent; one ray and one normal, batches as in C37_batch"},
{"property": "C224", "status": "proved", "theorems": ["Verif.Fp.C224_axis", "Verif.Fp.C224_error", "Verif.Fp.C224_back", "Verif.Fp.C224_full", "Verif.Fp.C224_compose", "Verif.Fp.C224_length"], "note": "Sine and cosine are taken as correctly rounded and einsum as summing from left to right; exponent range unbounded."},
{"property": "C225", "status": "partial", "theorems": ["Verif.Fp.C225_quarters_partial", "Verif.Fp.C225_never", "Verif.Fp.C225_refuted"], "note": "Exactness is refuted at 90 degrees and for every other angle than zero; equality up to rounding is proved."},
{"property": "C226", "status": "proved", "theorems": ["Verif.Fp.C226_drift", "Verif.Fp.C226_repeat", "Verif.Fp.C226_circle"], "note": "Sine and cosine are taken as correctly rounded and einsum as summing from left to right; exponent range unbounded."},
{"property": "C227", "status": "proved", "theorems": ["Verif.Fp.C227_opposite", "Verif.Fp.C227_binary_scale", "Verif.Fp.C227_scale", "Verif.Fp.C227_again"], "note": "binary64 with an unbounded exponent, so overflow and underflow of the squares are not covered; one row."},
{"property": "C228", "status": "proved", "theorems": ["Verif.Fp.C228_side", "Verif.Fp.C228_opposite", "Verif.Fp.C228_binary_scale", "Verif.Fp.C228_axis", "Verif.Fp.C228_twice"], "note": "Lines 680-681 of reflect for one ray and one normal; a zero has no sign in the model; exponent range unbounded."},
{"property": "C229", "status": "proved", "theorems": ["Verif.Fp.C229_opposite", "Verif.Fp.C229_binary_scale", "Verif.Fp.C229_mirror", "Verif.Fp.C229_zero"], "note": "Sine and cosine are taken as correctly rounded (hence odd and even); a zero has no sign in the model; exponent range unbounded."},
{"property": "C23", "status": "proved", "theorems": ["Verif.Geo.C23_xyz_uv_xyz", "Verif.Geo.C23_in_rect", "Verif.Geo.C23_xyz_uv_xyz_normalize"], "note": "whole sphere, every axis permutation"},
{"property": "C230", "status": "proved", "theorems": ["Verif.Fp.C230_mirror", "Verif.Fp.C230_opposite", "Verif.Fp.C230_binary_scale"], "note": "The query of the tree is modelled as in C219: rounded squared distances compared with the rounded squared tolerance; exponent range unbounded."},
{"property": "C24", "status": "proved", "theorems": ["Verif.Geo.C24_uv_xyz_uv", "Verif.Geo.C24_equator"], "note": "the excluded edge is characterised by C24_equator"},
{"property": "C25", "status": "partial", "theorems": ["Verif.Geo.C25_sky_round_trip_partial", "Verif.Geo.C25_sky_orientation", "Verif.Geo.C25_refuted"], "note": "false below the horizon off the plane x=0 (x mirrored); exact characterisation proved"},
{"property": "C26", "status": "proved", "theorems": ["Verif.Geo.C26_bin_uv_bin", "Verif.Geo.C26_cells_disjoint", "Verif.Geo.C26_uv_in_cell"], "note": ""},
{"property": "C27", "status": "partial", "theorems": ["Verif.Geo.C27_index_range", "Verif.Geo.C27_cell_partial", "Verif.Geo.C27_wraps", "Verif.Geo.C27_refuted"], "note": "false on the closed upper edges (v=1 wraps to row 0, u=2 to column side)"},
{"property": "C28", "status": "proved", "theorems": ["Verif.Geo.C28_sky_patch", "Verif.Geo.C28_below"], "note": ""},
{"property": "C29", "status": "proved", "theorems": ["Verif.Geo.C29_tolerant", "Verif.Geo.C29_contains_own", "Verif.Geo.C29_contains_own_norm"], "note": ""},
{"property": "C30", "status": "partial", "theorems": ["Verif.Geo.C30_tp_xyz_tp", "Verif.Geo.C30_xyz_tp_xyz_partial", "Verif.Geo.C30_cap_error", "Verif.Geo.C30_nadir", "Verif.Geo.C30_refuted"], "note": "false at -z (returns +z) and inexact inside two tiny polar caps; error bound proved there"},
{"property": "C31", "status": "partial", "theorems": ["Verif.Geo.C31_aa_partial", "Verif.Geo.C31_azimuth", "Verif.Geo.C31_refuted"], "note": "azimuth is in (-90,270], not [-180,180]; caps and nadir as in C30"},
{"property": "C32", "status": "partial", "theorems": ["Verif.Geo.C32_tpnorm_range", "Verif.Geo.C32_tpnorm_direction", "Verif.Geo.C32_tpnorm_partial", "Verif.Geo.C32_refuted"], "note": "direction kept iff floor(theta/pi) is even"},
{"property": "C33", "status": "proved", "theorems": ["Verif.Geo.C33_chord_inverse", "Verif.Geo.C33_chord_geometric"], "note": ""},
{"property": "C34", "status": "proved", "theorems": ["Verif.Geo.C34_angle_basic", "Verif.Geo.C34_angle_extremes", "Verif.Geo.C34_angle_triangle"], "note": ""},
{"property": "C35", "status": "proved", "theorems": ["Verif.Geo.C35_preserves", "Verif.Geo.C35_compose", "Verif.Geo.C35_full_turn", "Verif.Geo.C35_inverse", "Verif.Geo.C35_quarter_turn", "Verif.Geo.C35_is_rotation"], "note": ""},
{"property": "C36", "status": "partial", "theorems": ["Verif.Geo.C36_rotations", "Verif.Geo.C36_inverse", "Verif.Geo.C36_up", "Verif.Geo.C36_look_at_partial", "Verif.Geo.C36_cap_error", "Verif.Geo.C36_refuted"], "note": "everything holds for all vectors except that v/|v| goes to +z only up to 6.5e-5 inside two polar caps"},
{"property": "C37", "status": "proved", "theorems": ["Verif.Geo.C37_reflect", "Verif.Geo.C37_mask", "Verif.Geo.C37_batch"], "note": ""},
{"property": "C38", "status": "proved", "theorems": ["Verif.Cull.C38_cull", "Verif.Cull.C38_order_matters"], "note": "Any finite list of points of a pseudo-metric space and any tolerance; relies on scipy returning sorted neighbour lists (C38_order_matters shows the dependence)."},
{"property": "C39", "status": "proved", "theorems": ["Verif.Take.C39_take", "Verif.Take.C39_ndim", "Verif.Take.C39_raises"], "note": "Any shape, any arguments, axes named at most once (C39_ndim also for repeated axes). Python slices are specified by membership and order, not by the CPython arithmetic."},
{"property": "C40", "status": "partial", "theorems": ["Verif.Resamp.C40_up", "Verif.Resamp.C40_up_mean", "Verif.Resamp.C40_down_partial", "Verif.Resamp.C40_down_mean_partial", "Verif.Resamp.C40_undo_partial", "Verif.Resamp.C40_fl64_93", "Verif.Resamp.C40_refuted"], "note": "Enlarging is proved, reducing under the condition that the rounded ratio inverts to the factor (always in exact arithmetic, for powers of two in doubles). C40_refuted: in doubles reducing 93 entries to one returns two."},
{"property": "C41", "status": "proved", "theorems": ["Verif.Quant.C41_range", "Verif.Quant.C41_raises", "Verif.Quant.C41_total", "Verif.Quant.C41_excluded"], "note": "Over any ordered field and every order the unstable sort may give equal values."},
{"property": "C42", "status": "partial", "theorems": ["Verif.Quant.C42_monotone_partial", "Verif.Quant.C42_refuted"], "note": "False for q' just below 1 (np.isclose drops the interpolation); proved when q' is 1 or at least 1.001e-5 below."},
{"property": "C43", "status": "partial", "theorems": ["Verif.Quant.C43_order_partial", "Verif.Quant.C43_run", "Verif.Quant.C43_refuted"], "note": "False when equal values carry different weights; proved otherwise."},
{"property": "C44", "status": "partial", "theorems": ["Verif.Quant.C44_scale", "Verif.Quant.C44_equal_weights_partial", "Verif.Quant.C44_refuted", "Verif.Quant.C44_numpy", "Verif.Quant.C44_median"], "note": "Scale invariance proved in full; agreement with np.quantile fails for q just below 1, proved for all other q."},
{"property": "C45", "status": "partial", "theorems": ["Verif.Smooth.C45_between_partial", "Verif.Smooth.C45_constant_partial", "Verif.Smooth.C45_fallback_partial", "Verif.Smooth.C45_fallback_raises", "Verif.Smooth.C45_refuted", "Verif.Smooth.C45_band", "Verif.Smooth.C45_self_raises"], "note": "Bounds and constants hold whenever the call returns, interpolation for one feature; with several features the fall back raises TypeError (C45_refuted)."},
{"property": "C46", "status": "partial", "theorems": ["Verif.Smooth.C46_sorted_order", "Verif.Smooth.C46_sorted_input_partial", "Verif.Smooth.C46_refuted"], "note": "Holds for sorted samples; for unsorted ones the output stays in sorted order (the code tests the function resample instead of xr)."},
{"property": "C47", "status": "proved", "theorems": ["Verif.Map.C47_uv_xyz_uv", "Verif.Map.C47_xyz_uv_xyz", "Verif.Map.C47_box"], "note": "planar uv/world transforms are mutually inverse and onto the box"},
{"property": "C48", "status": "partial", "theorems": ["Verif.Map.C48_mirrored_partial", "Verif.Map.C48_pixels_in_view", "Verif.Map.C48_refuted"], "note": "refuted: the planar pixel round trip is mirrored in x; proved: the exact mirrored law, and every pixel ray is in view"},
{"property": "C49", "status": "partial", "theorems": ["Verif.Map.C49_planar", "Verif.Map.C49_out_of_range", "Verif.Map.C49_view_square_partial", "Verif.Map.C49_view_double", "Verif.Map.C49_refuted"], "note": "proved for planar mappers and square view grids; refuted for 2:1 view grids, with the exact result"},
{"property": "C50", "status": "partial", "theorems": ["Verif.Map.C50_isometry", "Verif.Map.C50_look_partial", "Verif.Map.C50_refuted", "Verif.Map.C50_cap_error"], "note": "rotation is an orthogonal map for every direction; the view direction goes to the centre unless it is within 3.2e-5 rad of, but not on, the vertical; refuted there with error bound"},
{"property": "C51", "status": "partial", "theorems": ["Verif.Map.C51_round_trip", "Verif.Map.C51_round_trip_360", "Verif.Map.C51_centre_partial", "Verif.Map.C51_refuted"], "note": "uv round trips for all view angles; the centre claim fails in the near-vertical caps only"},
{"property": "C52", "status": "proved", "theorems": ["Verif.Map.C52_vxy_round_trip", "Verif.Map.C52_pixel_round_trip", "Verif.Map.C52_world_round_trip", "Verif.Map.C52_world_pixel"], "note": "image and pixel round trips for every angular view up to 180"},
{"property": "C53", "status": "partial", "theorems": ["Verif.Map.C53_equiangular_partial", "Verif.Map.C53_circle_partial", "Verif.Map.C53_image_radius_partial", "Verif.Map.C53_refuted"], "note": "equiangular law with the exact constant; refuted for the nominal view angle below 180"},
{"property": "C54", "status": "partial", "theorems": ["Verif.Map.C54_halves", "Verif.Map.C54_round_trip_partial", "Verif.Map.C54_pixels_partial", "Verif.Map.C54_one_half_partial", "Verif.Map.C54_any_direction", "Verif.Map.C54_refuted", "Verif.Map.C54_pixelrays"], "note": "two halves for every direction; round trip and pixels for directions outside the near-vertical caps of C50, and for every direction 3.3e-5 inside the circles; false on the rim for directions in the caps"},
{"property": "C55", "status": "partial", "theorems": ["Verif.Map.C55_planar", "Verif.Map.C55_angular", "Verif.Map.C55_exact_partial", "Verif.Map.C55_exact_planar", "Verif.Map.C55_mask_refuted"], "note": "masks that list pixels of the image; false for masks with negative positions, which numpy counts from the end"},
{"property": "C56", "status": "partial", "theorems": ["Verif.Alias.C56_pure_partial", "Verif.Alias.C56_fresh", "Verif.Alias.C56_pixel2ray_partial", "Verif.Alias.C56_literal_partial", "Verif.Alias.C56_tpnorm", "Verif.Alias.C56_vxy2xyz", "Verif.Alias.C56_planar_vxy2xyz", "Verif.Alias.C56_refuted", "Verif.Alias.C56_vxy2xyz_refuted", "Verif.Alias.C56_planar_remains"], "note": "false in general: tpnorm, tp2xyz and both vxy2xyz overwrite the caller's array (exact conditions given); the other transforms and pixel2ray are proved pure, results are new arrays. Views sharing memory are not modelled"},
{"property": "C57", "status": "partial", "theorems": ["Verif.Map.C57_round_trip_partial", "Verif.Map.C57_round_refuted", "Verif.Map.C57_law_partial", "Verif.Map.C57_equisolid_refuted"], "note": "round trip within 4e-9 rad for every view, 1e-8 of the image for view angles >= 30; refuted for tiny view angles; the projection law implemented is the inverse of the equisolid law"},
{"property": "C58", "status": "partial", "theorems": ["Verif.Map.C58_same_as_solid_partial", "Verif.Map.C58_refuted"], "note": "the class is the equisolid one with an angle check; refuted at 120 degrees"},
{"property": "C59", "status": "proved", "theorems": ["Verif.Peak.C59_energy"], "note": "sum of weighted luminance times solid angle is unchanged, with and without keepzeros, for full, partial and blurred suns"},
{"property": "C60", "status": "proved", "theorems": ["Verif.Peak.C60_replaced"], "note": "includes the branch with no ray above the threshold and both values of keepzeros"},
{"property": "C61", "status": "partial", "theorems": ["Verif.Peak.C61_unit", "Verif.Peak.C61_sensor_partial", "Verif.Peak.C61_refuted"], "note": "unit vector inside the cone: proved. The bounds on a sensor fail when removed rays lie behind its plane (C61_refuted); proved when the whole cone is in front, with 1/cos(cone) for the factor"},
{"property": "C62", "status": "proved", "theorems": ["Verif.Peak.C62_always", "Verif.Peak.C62_terminates", "Verif.Peak.C62_no_exception", "Verif.Peak.C62_sizes", "Verif.Peak.C62_secondary"], "note": "ends for every input; a ZeroDivisionError exactly when a group has no solid angle"},
{"property": "C63", "status": "proved", "theorems": ["Verif.Map.C63_ang2uv", "Verif.Map.C63_uv2ang", "Verif.Map.C63_uv2ang_360", "Verif.Map.C63_shape"], "note": "array_ang2uv for every direction and view angle up to 180 degrees on square images; array_uv2ang for square and two to one images with its own default view; other shapes raise. Exact reals"},
{"property": "C64", "status": "partial", "theorems": ["Verif.Cmd.C64_type_error", "Verif.Cmd.C64_partial", "Verif.Cmd.C64_errors", "Verif.Cmd.C64_ends", "Verif.Cmd.C64_refuted"], "note": "false: without a usable entry every colour metric request ends in a TypeError (C64_type_error); the remaining decision table is proved"},
{"property": "C65", "status": "partial", "theorems": ["Verif.Metric.C65_linear_partial", "Verif.Metric.C65_scale", "Verif.Metric.C65_nonneg", "Verif.Metric.C65_built_nonneg", "Verif.Metric.C65_homogeneous", "Verif.Metric.C65_order_partial", "Verif.Metric.C65_refuted"], "note": "additivity and order independence proved for every ray set without bright rays just outside the view edge (additivity refuted with one); homogeneity, scale and sign for every ray set"},
{"property": "C66", "status": "partial", "theorems": ["Verif.Metric.C66_gcr_ge_one", "Verif.Metric.C66_pwgcr_ge_one", "Verif.Metric.C66_uniform", "Verif.Metric.C66_black", "Verif.Metric.C66_scale_invariant", "Verif.Metric.C66_built_scale", "Verif.Metric.C66_built_pwgcr", "Verif.Metric.C66_built_partial", "Verif.Metric.C66_refuted"], "note": "gcr >= 1 needs the view area to be the sum of the solid angles; refuted when a correction is requested but no ray lies near the edge"},
{"property": "C67", "status": "proved", "theorems": ["Verif.Metric.C67_partition", "Verif.Metric.C67_illum", "Verif.Metric.C67_backlum"], "note": ""},
{"property": "C68", "status": "proved", "theorems": ["Verif.Metric.C68_lowlight", "Verif.Metric.C68_dgp", "Verif.Metric.C68_built_dgp", "Verif.Metric.C68_ugr_ugp", "Verif.Metric.C68_ugp_mono"], "note": ""},
{"property": "C69", "status": "partial", "theorems": ["Verif.Metric.C69_terminates", "Verif.Metric.C69_corrected_partial", "Verif.Metric.C69_uncorrected", "Verif.Metric.C69_refuted"], "note": "termination proved for all; the sum is the view area only if some ray lies on the edge (refuted otherwise)"},
{"property": "C70", "status": "proved", "theorems": ["Verif.Metric.C70_additive", "Verif.Metric.C70_irradiance", "Verif.Metric.C70_accepts"], "note": "partial sums over groups of rays of one view with a common view area"},
{"property": "C71", "status": "proved", "theorems": ["Verif.Metric.C71_check", "Verif.Metric.C71_call", "Verif.Metric.C71_call_base", "Verif.Metric.C71_call_default"], "note": ""},
{"property": "C72", "status": "partial", "theorems": ["Verif.Metric.C72_loop_partial", "Verif.Metric.C72_single_partial", "Verif.Metric.C72_caller_partial", "Verif.Metric.C72_own_refuted", "Verif.Metric.C72_caller_refuted", "Verif.Metric.moved_rodrigues"], "note": "refuted for two overlapping strays (each write goes to all strays, in the caller's array); exact loop behaviour and the single stray case (overlap area as Lebesgue measure, moved direction) proved"},
{"property": "C73", "status": "partial", "theorems": ["Verif.Pos.C73_range", "Verif.Pos.C73_behind", "Verif.Pos.C73_behind_partial", "Verif.Pos.C73_sight_partial", "Verif.Pos.C73_mirror_partial", "Verif.Pos.C73_refuted", "Verif.Pos.C73_kim"], "note": "caps of 3.2e-5 rad around vertical view directions excluded; inside them the Kim index on the line of sight is not 1 (refuted)"},
{"property": "C74", "status": "proved", "theorems": ["Verif.Retina.C74_hpsf", "Verif.Retina.C74_inverse", "Verif.Retina.C74_blur", "Verif.Retina.C74_spread", "Verif.Retina.C74_radius"], "note": ""},
{"property": "C75", "status": "partial", "theorems": ["Verif.Retina.C75_between", "Verif.Retina.C75_positive", "Verif.Retina.C75_symmetric", "Verif.Retina.C75_vertical_partial", "Verif.Retina.C75_refuted"], "note": "positivity, symmetry and interpolation proved; the selection of superior and inferior meridians is refuted (it tests x instead of y)"},
{"property": "C76", "status": "proved", "theorems": ["Verif.Gss.C76_sum", "Verif.Gss.C76_pos", "Verif.Gss.C76_kernel", "Verif.Gss.C76_total", "Verif.Gss.C76_blur_nonneg", "Verif.Gss.C76_uniform"], "note": "coefficients nonnegative and summing to one, discrete kernel sums to the captured energy, the continuous spread integrates to one; blurring keeps nonnegative and uniform fields"},
{"property": "C77", "status": "proved", "theorems": ["Verif.Gss.C77_cone_range", "Verif.Gss.C77_cone_mono", "Verif.Gss.C77_cone_anti", "Verif.Gss.C77_cone_half", "Verif.Gss.C77_logistic", "Verif.Gss.C77_logistic_mono", "Verif.Gss.C77_pupil", "Verif.Gss.C77_gss", "Verif.Gss.C77_gss_mono", "Verif.Gss.C77_ratio", "Verif.Gss.C77_linear", "Verif.Gss.C77_response", "Verif.Gss.C77_unsaturated", "Verif.Gss.C77_compute"], "note": "stage by stage and for the whole pipeline; gaussian filters under the Averaging contract"},
{"property": "C78", "status": "proved", "theorems": ["Verif.Gss.C78_unique", "Verif.Gss.C78_width", "Verif.Gss.C78_centre", "Verif.Gss.C78_assembled", "Verif.Gss.C78_nearest"], "note": ""},
{"property": "C79", "status": "partial", "theorems": ["Verif.Gss.C79_partial", "Verif.Gss.C79_resync_partial", "Verif.Gss.C79_pixels", "Verif.Gss.C79_shapes", "Verif.Gss.C79_refuted", "Verif.Gss.C79_images_refuted"], "note": "true for square images without view changes, or after a change of size; refuted for view changes (the setter keeps the old geometry) and for histories with a failed non square image; one hemisphere only"},
{"property": "C80", "status": "proved", "theorems": ["Verif.Metric.C80_call", "Verif.Metric.C80_irradiance"], "note": ""},
{"property": "C81", "status": "partial", "theorems": ["Verif.Cmd.C81_cells", "Verif.Cmd.C81_partial", "Verif.Cmd.C81_names", "Verif.Cmd.C81_empty", "Verif.Cmd.C81_rectangular", "Verif.Cmd.C81_refuted"], "note": "false with irradiance, which prints three values under one column; the content of every cell, order of rows, columns and exact widths are proved for every schedule of the pool"},
{"property": "C82", "status": "partial", "theorems": ["Verif.Geo.C82_refuted", "Verif.Geo.C82_near_partial"], "note": "false near the border of the square: the tolerance wraps to the opposite border"},
{"property": "C83", "status": "proved", "theorems": ["Verif.Geo.C83_cal_bin"], "note": ""},
{"property": "C84", "status": "proved", "theorems": ["Verif.Geo.C84_cal_xyz"], "note": ""},
{"property": "C85", "status": "proved", "theorems": ["Verif.Geo.C85_fisheye", "Verif.Geo.C85_fisheye_scale"], "note": ""},
{"property": "C86", "status": "partial", "theorems": ["Verif.Map.C86_effective_angle_partial", "Verif.Map.C86_refuted"], "note": "the effective angle is chordFactor * viewangle, exact only at 180"},
{"property": "C87", "status": "partial", "theorems": ["Verif.Map.C87_plain", "Verif.Map.C87_jitter_partial", "Verif.Map.C87_refuted"], "note": "exact shape law; jitter > 0 raises unless the frame width is 1 or 2"},
{"property": "C88", "status": "proved", "theorems": ["Verif.Map.C88_framesize", "Verif.Map.C88_box", "Verif.Map.C88_ties"], "note": ""},
{"property": "C89", "status": "partial", "theorems": ["Verif.Alias.C89_integer_partial", "Verif.Alias.C89_refuted", "Verif.Alias.C89_tpnorm_refuted"], "note": "false: tpnorm truncates into integer arrays, the angular vxy2xyz raises TypeError; proved for uv2xyz and the planar vxy2xyz"},
{"property": "C90", "status": "partial", "theorems": ["Verif.Map.C90_area_partial", "Verif.Map.C90_refuted"], "note": "area is the solid angle of the nominal cone; in_view accepts a strictly smaller cone below 180 degrees"},
{"property": "C91", "status": "partial", "theorems": ["Verif.Map.C91_swapped_partial", "Verif.Map.C91_zoom", "Verif.Map.C91_refuted"], "note": "false: source and destination are exchanged; the law the code satisfies is proved. RegularGridInterpolator enters through the contract NodeOk"},
{"property": "C92", "status": "partial", "theorems": ["Verif.Pos.C92_growth_partial", "Verif.Pos.C92_refuted"], "note": "proved outside the caps of 3.2e-5 rad around vertical view directions; false inside them"},
{"property": "C93", "status": "partial", "theorems": ["Verif.Retina.C93_meridian_partial", "Verif.Retina.C93_refuted"], "note": "monotonicity proved; agreement at the fovea refuted"},
{"property": "C94", "status": "partial", "theorems": ["Verif.Retina.C94_integer_partial", "Verif.Retina.C94_refuted"], "note": "refuted: quotients are truncated in integer arrays; exact behaviour proved"},
{"property": "C95", "status": "partial", "theorems": ["Verif.Gss.C95_partial", "Verif.Gss.C95_mean", "Verif.Gss.C95_between_partial", "Verif.Gss.C95_dark", "Verif.Gss.C95_refuted"], "note": "true for positive irradiance; refuted at zero, which is adapted as irradiance 1"},
{"property": "C96", "status": "partial", "theorems": ["Verif.Gss.C96_exact", "Verif.Gss.C96_partial", "Verif.Gss.C96_refuted"], "note": "exact condition proved: the load fails iff no pixel with positive solid angle in the view has light; refuted by black images"},
{"property": "C97", "status": "partial", "theorems": ["Verif.Gss.C97_no_view", "Verif.Gss.C97_cases_partial", "Verif.Gss.C97_refuted", "Verif.Gss.C97_other"], "note": "refuted: a missing view makes the setter look for a file called None, the image is then parsed as a view file and never loaded; the other cases are proved"},
{"property": "C98", "status": "partial", "theorems": ["Verif.Gss.C98_partial", "Verif.Gss.C98_values_partial", "Verif.Gss.C98_order_partial", "Verif.Gss.C98_refuted"], "note": "independent of workers and schedule, one score per image in the order given, each on a fresh instance, but with the view of the first image; own view refuted"},
{"property": "C99", "status": "proved", "theorems": ["Verif.Gss.C99_surplus"], "note": ""}
]}
